import Verif.Lemmas.Executor

/-! The executor (`toffee/executor.py`): C19, C20, C68. -/

namespace Toffee.Executor

variable {V : Type}

/-- A test that makes the calls `cs` in an `async with Executor(exit)` block and then leaves it; `as`
is what happens afterwards. -/
def after (exit : Name) (cs : List Call) (as : List (Act V)) : St V :=
  run exit (init V) (cs.map Act.call ++ .exit :: as)

/-- The three exit modes. -/
def ValidExit (exit : Name) : Prop :=
  exit = "all".toList ∨ exit = "none".toList ∨ exit = "any".toList

/-- The coroutines are different objects. -/
def Distinct (cs : List Call) : Prop := (cs.map fun c => c.coro.id).Nodup

/-! ### Specification -/

/-- The name of the group of a call: the one that was given, or else the names of the agent (for the
call of a driver method) and of the coroutine, joined by a dot. -/
def key (c : Call) : Name := c.group.getD (['.'].intercalate (c.coro.agent.toList ++ [c.coro.name]))

/-- The calls that are accepted: a priority is one of 0, ..., 99; a priority or an order is given only
for the call of a driver method. -/
def Legal (c : Call) : Prop :=
  (∀ p ∈ c.priority, ∃ n : Nat, n < 100 ∧ p = n) ∧
  (c.priority ≠ none ∨ c.order ≠ none → ∃ a, c.coro.agent = some a)

theorem key_eq (c : Call) : c.groupName = key c := by
  unfold Call.groupName key
  cases hg : c.group with
  | some g => rfl
  | none =>
    cases ha : c.coro.agent with
    | none => simp [List.intercalate]
    | some a => simp [List.intercalate]

theorem legal_iff (c : Call) : c.ok = true ↔ Legal c := by
  unfold Call.ok Legal
  cases hp : c.priority with
  | none => cases ho : c.order <;> cases ha : c.coro.agent <;> simp
  | some p =>
    have : (∀ q ∈ some p, ∃ n : Nat, n < 100 ∧ q = n) ↔ 0 ≤ p ∧ p ≤ 99 := by
      constructor
      · intro h
        obtain ⟨n, h1, h2⟩ := h p rfl
        omega
      · intro h q hq
        cases hq
        exact ⟨p.toNat, by omega, by omega⟩
    rw [this]
    cases ho : c.order <;> cases ha : c.coro.agent <;> simp

instance (c : Call) : Decidable (Legal c) := decidable_of_iff _ (legal_iff c)

theorem ok_eq (c : Call) : c.ok = decide (Legal c) := by
  rw [Bool.eq_iff_iff, legal_iff, decide_eq_true_iff]

/-- Every call was accepted. -/
def Accepted (cs : List Call) : Prop := ∀ c ∈ cs, Legal c

/-- The coroutines of a group, in the order of the calls; rejected calls do not count. -/
def group (cs : List Call) (g : Name) : List Nat :=
  (cs.filter fun c => decide (Legal c ∧ key c = g)).map fun c => c.coro.id

/-- One after the other, in this order: each of the first ones has started and returned, and perhaps
the next one has started, and perhaps it has raised an exception. -/
def OneByOne (cs : List Nat) (log : List (Ev V)) : Prop :=
  ∃ vs : List V, vs.length ≤ cs.length ∧
    (log = seqTrace cs vs ∨ ∃ c, cs[vs.length]? = some c ∧
      (log = seqTrace cs vs ++ [.start c] ∨ log = seqTrace cs vs ++ [.start c, .raise c]))

/-- One entry per group name, in the order of first use: the value of its coroutine if there is one,
the list of the values of its coroutines otherwise. -/
def entries (cs : List Call) (val : Nat → V) : List (Name × Res V) :=
  (firsts (cs.map key)).map fun g => (g, match group cs g with
    | [c] => .one (val c)
    | l => .many (l.map val))

/-- The same for the accepted calls. -/
def expected (cs : List Call) (val : Nat → V) : List (Name × Res V) :=
  entries (cs.filter fun c => decide (Legal c)) val

/-- `val` tells what the coroutines returned. -/
def Returned (val : Nat → V) (log : List (Ev V)) : Prop := ∀ c v, .finish c v ∈ log → val c = v

/-! ### Proofs -/

theorem ids_table {cs : List Call} {i : Nat} {g : Name × List Entry} (h : (table cs)[i]? = some g) :
    (groupsOf cs)[i]? = some g.1 ∧ g.2 = (members cs g.1).map Call.entry := by
  unfold table at h
  rw [List.getElem?_map, Option.map_eq_some_iff] at h
  obtain ⟨n, h1, rfl⟩ := h
  exact ⟨h1, rfl⟩

theorem ids_members (cs : List Call) (g : Name) :
    ids ((members cs g).map Call.entry) = (members cs g).map fun c => c.coro.id := by
  unfold ids
  rw [List.map_map]
  rfl

theorem groupsOf_eq (cs : List Call) : groupsOf cs = firsts (cs.map key) := by
  unfold groupsOf
  rw [show Call.groupName = key from funext key_eq]

theorem members_group (cs : List Call) (g : Name) :
    (members cs g).map (fun c => c.coro.id) = group cs g := by
  unfold members group
  simp only [ok_eq, key_eq, Bool.decide_and]

theorem mem_inj {cs : List Call} (h : Distinct cs) {c c' : Call} (hc : c ∈ cs) (hc' : c' ∈ cs)
    (he : c.coro.id = c'.coro.id) : c = c' := by
  obtain ⟨i, hi, rfl⟩ := List.getElem_of_mem hc
  obtain ⟨j, hj, rfl⟩ := List.getElem_of_mem hc'
  have h3 : (cs.map fun c => c.coro.id)[i]'(by simpa using hi) =
      (cs.map fun c => c.coro.id)[j]'(by simpa using hj) := by simpa using he
  have := (List.getElem_inj h).1 h3
  subst this
  rfl

theorem disj_table {cs : List Call} (h : Distinct cs) : Disj (table cs) := by
  intro i j gi gj hi hj c hci hcj
  obtain ⟨h1, h2⟩ := ids_table hi
  obtain ⟨h3, h4⟩ := ids_table hj
  rw [h2, ids_members, List.mem_map] at hci
  rw [h4, ids_members, List.mem_map] at hcj
  obtain ⟨a, ha, hae⟩ := hci
  obtain ⟨b, hb, hbe⟩ := hcj
  unfold members at ha hb
  rw [List.mem_filter] at ha hb
  have hab := mem_inj h ha.1 hb.1 (hae.trans hbe.symm)
  subst hab
  have e1 : a.groupName = gi.1 := by simpa using (Bool.and_eq_true_iff.1 ha.2).2
  have e2 : a.groupName = gj.1 := by simpa using (Bool.and_eq_true_iff.1 hb.2).2
  rw [← e1] at h1
  rw [← e2] at h3
  rw [List.getElem?_eq_some_iff] at h1 h3
  obtain ⟨h1, h1'⟩ := h1
  obtain ⟨h3, h3'⟩ := h3
  exact (List.getElem_inj (firsts_nodup _)).1 (h1'.trans h3'.symm)

theorem run_append (exit : Name) (s : St V) (a b : List (Act V)) :
    run exit s (a ++ b) = run exit (run exit s a) b := List.foldl_append ..

theorem run_cons (exit : Name) (s : St V) (a : Act V) (b : List (Act V)) :
    run exit s (a :: b) = run exit (step exit s a) b := rfl

/-- The state at the end of the block. -/
theorem run_calls (exit : Name) (cs : List Call) :
    run exit (init V) (cs.map Act.call) = { init V with coros := table cs } := by
  have h : ∀ (cs : List Call) (gs : Dict Name (List Entry)),
      run exit ({ init V with coros := gs }) (cs.map Act.call) =
        { init V with coros := cs.foldl (fun gs c => (call gs c).1) gs } := by
    intro cs
    induction cs with
    | nil => intro gs; rfl
    | cons c cs ih =>
      intro gs
      rw [List.map_cons, run_cons]
      exact ih _
  rw [← coros_table]
  exact h cs []

/-- The state just behind the end of the block. -/
theorem after_nil {exit : Name} (cs : List Call) (h : ValidExit exit) :
    TasksOk (table cs) (after (V := V) exit cs []) ∧ (after (V := V) exit cs []).phase ≠ .inside ∧
    (after (V := V) exit cs []).tasks = newTasks (table cs) ∧
    (after (V := V) exit cs []).results = [] ∧ (after (V := V) exit cs []).event = false ∧
    (after (V := V) exit cs []).log = [] ∧
    (after (V := V) exit cs []).phase = if exit = "none".toList then .left else .leaving := by
  have key : ∀ s : St V, s.coros = table cs → s.tasks = newTasks (table cs) → s.log = [] →
      TasksOk (table cs) s := by
    intro s h1 h2 h3
    refine ⟨h1, by rw [h2]; simp [newTasks], fun i g t hg ht => ?_⟩
    rw [h2] at ht
    unfold newTasks at ht
    rw [List.getElem?_map, hg] at ht
    cases ht
    refine ⟨[], rfl, rfl, ?_, by simp, by simp⟩
    rw [h3]
    rfl
  unfold after
  rw [run_append, run_calls]
  rcases h with rfl | rfl | rfl
  · exact ⟨key _ rfl rfl rfl, show Phase.leaving ≠ .inside by decide, rfl, rfl, rfl, rfl, rfl⟩
  · exact ⟨key _ rfl rfl rfl, show Phase.left ≠ .inside by decide, rfl, rfl, rfl, rfl, rfl⟩
  · exact ⟨key _ rfl rfl rfl, show Phase.leaving ≠ .inside by decide, rfl, rfl, rfl, rfl, rfl⟩

theorem after_append (exit : Name) (cs : List Call) (a b : List (Act V)) :
    after exit cs (a ++ b) = run exit (after exit cs a) b := by
  unfold after
  rw [← run_append, List.append_assoc]
  rfl

theorem after_ok {exit : Name} {cs : List Call} (h : ValidExit exit) (hd : Distinct cs)
    (as : List (Act V)) :
    TasksOk (table cs) (after exit cs as) ∧ (after exit cs as).phase ≠ .inside := by
  induction as using snoc_ind with
  | h0 =>
    obtain ⟨h1, h2, _⟩ := after_nil (V := V) cs h
    exact ⟨h1, h2⟩
  | h1 as a ih =>
    rw [after_append]
    exact ⟨tasksOk_step exit (disj_table hd) ih.1 ih.2 a, phase_step exit ih.2 a⟩

theorem seqTrace_take (a b : List Nat) (va : List V) (h : a.length = va.length) :
    seqTrace (a ++ b) va = seqTrace a va := by
  have := seqTrace_append a va h b []
  rw [List.append_nil] at this
  rw [this]
  cases b <;> simp [seqTrace]

theorem taskOk_oneByOne {cs : List Nat} {t : Task V} {log : List (Ev V)} (h : TaskOk cs t log) :
    OneByOne cs (proj cs log) := by
  obtain ⟨pre, h1, h2, h3, _, h5⟩ := h
  refine ⟨t.results, ?_, ?_⟩
  · rw [h1, ← h2]
    simp
  · rw [h3]
    cases hc : t.cur with
    | none =>
      cases he : t.err with
      | none =>
        left
        rw [h1, seqTrace_take _ _ _ h2]
        simp
      | some c =>
        right
        refine ⟨c, ?_, .inr ?_⟩
        · rw [h1, ← h2, hc, he]
          simp
        · rw [h1, seqTrace_take _ _ _ h2]
          simp
    | some c =>
      right
      have he : t.err = none := by
        apply Classical.byContradiction
        intro he
        have := h5 he
        rw [hc] at this
        cases this
      refine ⟨c.id, ?_, .inl ?_⟩
      · rw [h1, ← h2, hc]
        simp
      · rw [h1, seqTrace_take _ _ _ h2, he]
        simp

/-- With any other exit mode nothing runs. -/
theorem after_error {exit : Name} (cs : List Call) (hv : ¬ ValidExit exit) (as : List (Act V)) :
    (after exit cs as).log = [] ∧ (after exit cs as).tasks = [] ∧
      (after exit cs as).results = [] ∧ (after exit cs as).phase = .error := by
  induction as using snoc_ind with
  | h0 =>
    unfold after
    rw [run_append, run_calls]
    unfold ValidExit at hv
    simp only [run, List.foldl_cons, List.foldl_nil, step, init, if_true]
    rw [if_neg fun h => hv (.inl h), if_neg fun h => hv (.inr (.inl h)),
      if_neg fun h => hv (.inr (.inr h))]
    exact ⟨rfl, rfl, rfl, rfl⟩
  | h1 as a ih =>
    rw [after_append]
    obtain ⟨h1, h2, h3, h4⟩ := ih
    generalize after exit cs as = s at h1 h2 h3 h4
    show (step exit s a).log = [] ∧ (step exit s a).tasks = [] ∧ (step exit s a).results = [] ∧
      (step exit s a).phase = .error
    cases a <;> simp [step, h1, h2, h3, h4]

/-- **C19**, the order: at any time, whatever is interleaved, the coroutines of a group that have begun
have run one after the other in the order of the calls. -/
theorem C19_sequential (exit : Name) (cs : List Call) (as : List (Act V)) (g : Name)
    (hd : Distinct cs) :
    OneByOne (group cs g) (proj (group cs g) (after exit cs as).log) := by
  by_cases hv : ValidExit exit
  · obtain ⟨hok, _⟩ := after_ok (V := V) hv hd as
    by_cases hg : g ∈ groupsOf cs
    · obtain ⟨i, hi, rfl⟩ := List.getElem_of_mem hg
      have h1 : (table cs)[i]? = some ((groupsOf cs)[i],
          (members cs (groupsOf cs)[i]).map Call.entry) := by
        unfold table
        rw [List.getElem?_map, List.getElem?_eq_getElem hi]
        rfl
      have hlt : i < (after exit cs as).tasks.length := by
        rw [hok.length]
        unfold table
        simpa using hi
      have h2 := hok.tasks i _ _ h1 (List.getElem?_eq_getElem hlt)
      rw [ids_members, members_group] at h2
      exact taskOk_oneByOne h2
    · have h0 : group cs g = [] := by
        unfold group
        rw [List.map_eq_nil_iff, List.filter_eq_nil_iff]
        intro c hc h
        apply hg
        unfold groupsOf
        rw [firsts_mem, List.mem_map]
        exact ⟨c, hc, (key_eq c).trans (of_decide_eq_true h).2⟩
      rw [h0]
      refine ⟨[], by simp, .inl ?_⟩
      simp [proj, seqTrace]
  · rw [(after_error cs hv as).1]
    exact ⟨[], by simp, .inl (by simp [proj, seqTrace])⟩

/-- When all tasks are done, all coroutines have returned, and `__set_results` gives what is
expected. -/
theorem results_expected {cs : List Call} {s : St V}
    (hok : TasksOk (table cs) s) (hall : allDone s = true) :
    (∀ c ∈ cs, Legal c → ∃ v, .finish c.coro.id v ∈ s.log) ∧
    ∀ val, Returned val s.log → setResults s.coros (s.tasks.map (·.results)) = entries cs val := by
  have hdone : ∀ (i : Nat) g t, (table cs)[i]? = some g → s.tasks[i]? = some t →
      (ids g.2).length = t.results.length ∧ proj (ids g.2) s.log = seqTrace (ids g.2) t.results := by
    intro i g t hg ht
    obtain ⟨pre, h1, h2, h3, h4, _⟩ := hok.tasks i g t hg ht
    have hd : t.done = true := by
      unfold allDone at hall
      rw [List.all_eq_true] at hall
      exact hall t (List.mem_of_getElem? ht)
    obtain ⟨h5, h5', h6⟩ := h4 hd
    rw [h5, h5', h6] at h1
    rw [h5, h5'] at h3
    have h7 : pre = ids g.2 := by rw [h1]; simp [ids]
    rw [← h7, h2]
    refine ⟨rfl, ?_⟩
    rw [h7, h3, h7]
    simp
  refine ⟨fun c hc hcok => ?_, fun val hval => ?_⟩
  · have hg : c.groupName ∈ groupsOf cs := by
      unfold groupsOf
      rw [firsts_mem]
      exact List.mem_map_of_mem hc
    obtain ⟨i, hi, hie⟩ := List.getElem_of_mem hg
    have h1 : (table cs)[i]? = some (c.groupName, (members cs c.groupName).map Call.entry) := by
      unfold table
      rw [List.getElem?_map, List.getElem?_eq_getElem hi, hie]
      rfl
    have hlt : i < s.tasks.length := by
      rw [hok.length]
      unfold table
      simpa using hi
    obtain ⟨h2, h3⟩ := hdone i _ _ h1 (List.getElem?_eq_getElem hlt)
    have hm : c.coro.id ∈ ids ((members cs c.groupName).map Call.entry) := by
      rw [ids_members]
      refine List.mem_map_of_mem (f := fun c : Call => c.coro.id) ?_
      unfold members
      rw [List.mem_filter]
      exact ⟨hc, by simp [(legal_iff c).2 hcok]⟩
    obtain ⟨j, hj, hje⟩ := List.getElem_of_mem hm
    refine ⟨s.tasks[i].results[j]'(by rw [← h2]; exact hj), ?_⟩
    have : Ev.finish c.coro.id (s.tasks[i].results[j]'(by rw [← h2]; exact hj)) ∈
        proj (ids ((members cs c.groupName).map Call.entry)) s.log := by
      rw [h3, finish_mem_seqTrace]
      exact ⟨j, by rw [List.getElem?_eq_getElem hj, hje], List.getElem?_eq_getElem _⟩
    unfold proj at this
    rw [List.mem_filter] at this
    exact this.1
  · unfold setResults
    rw [hok.coros]
    apply List.ext_getElem?
    intro i
    rw [List.getElem?_zipWith]
    unfold entries
    rw [← groupsOf_eq, List.getElem?_map, List.getElem?_map]
    cases hg : (table cs)[i]? with
    | none =>
      have : (groupsOf cs)[i]? = none := by
        unfold table at hg
        rw [List.getElem?_map, Option.map_eq_none_iff] at hg
        exact hg
      rw [this]
      rfl
    | some g =>
      obtain ⟨h1, h2⟩ := ids_table hg
      have hlt : i < s.tasks.length := by
        rw [hok.length]
        rw [List.getElem?_eq_some_iff] at hg
        exact hg.1
      rw [h1, List.getElem?_eq_getElem hlt]
      obtain ⟨h3, h4⟩ := hdone i _ _ hg (List.getElem?_eq_getElem hlt)
      rw [h2, ids_members, members_group] at h3 h4
      have hv : s.tasks[i].results = (group cs g.1).map val := by
        apply List.ext_getElem (by rw [List.length_map]; exact h3.symm)
        intro j hj1 hj2
        rw [List.getElem_map]
        refine (hval _ _ ?_).symm
        have : Ev.finish ((group cs g.1)[j]'(by rw [h3]; exact hj1)) s.tasks[i].results[j] ∈
            proj (group cs g.1) s.log := by
          rw [h4, finish_mem_seqTrace]
          exact ⟨j, List.getElem?_eq_getElem _, List.getElem?_eq_getElem _⟩
        unfold proj at this
        rw [List.mem_filter] at this
        exact this.1
      simp only [Option.map_some]
      congr 2
      rw [hv, h2, ← members_group]
      cases members cs g.1 with
      | nil => rfl
      | cons a l =>
        cases l with
        | nil => rfl
        | cons b l => rfl

/-- The results are those of all group tasks, which are done. -/
def Final (s : St V) : Prop :=
  allDone s = true ∧ s.results = setResults s.coros (s.tasks.map (·.results))

theorem final_step (exit : Name) {s : St V} (h : Final s) (hp : s.phase ≠ .inside) (a : Act V) :
    Final (step exit s a) ∧ (step exit s a).results = s.results ∧ (step exit s a).log = s.log := by
  have hd : ∀ (i : Nat) (t : Task V), s.tasks[i]? = some t → t.done = true := by
    intro i t ht
    have := h.1
    unfold allDone at this
    rw [List.all_eq_true] at this
    exact this t (List.mem_of_getElem? ht)
  cases a with
  | call c => simp only [step, if_neg hp]; exact ⟨h, trivial, trivial⟩
  | exit => simp only [step, if_neg hp]; exact ⟨h, trivial, trivial⟩
  | start i =>
    simp only [step]
    split
    · rename_i ht; exact absurd (hd i _ ht) (by simp)
    · exact ⟨h, rfl, rfl⟩
  | finish i v =>
    simp only [step]
    split
    · rename_i ht; exact absurd (hd i _ ht) (by simp)
    · exact ⟨h, rfl, rfl⟩
  | complete i =>
    simp only [step]
    split
    · rename_i ht; exact absurd (hd i _ ht) (by simp)
    · exact ⟨h, rfl, rfl⟩
  | raise i =>
    simp only [step]
    split
    · rename_i ht; exact absurd (hd i _ ht) (by simp)
    · exact ⟨h, rfl, rfl⟩
  | waitAll =>
    simp only [step]
    repeat' split
    all_goals exact ⟨h, rfl, rfl⟩
  | proceed =>
    rcases proceed_cases exit s with h1 | ⟨_, _, _, h1⟩ | ⟨_, _, h1⟩ |
      ⟨_, _, _, _, _, _, _, _, _, h1⟩ <;> rw [h1]
    · exact ⟨h, rfl, rfl⟩
    · exact ⟨h, rfl, rfl⟩
    · exact ⟨⟨h.1, rfl⟩, h.2.symm, rfl⟩
    · exact ⟨h, rfl, rfl⟩

theorem final_run (exit : Name) {s : St V} (h : Final s) (hp : s.phase ≠ .inside) (as : List (Act V)) :
    Final (run exit s as) ∧ (run exit s as).results = s.results ∧ (run exit s as).log = s.log := by
  induction as generalizing s with
  | nil => exact ⟨h, rfl, rfl⟩
  | cons a as ih =>
    rw [run_cons]
    obtain ⟨h1, h2, h3⟩ := final_step exit h hp a
    obtain ⟨h4, h5, h6⟩ := ih h1 (phase_step exit hp a)
    exact ⟨h4, h5.trans h2, h6.trans h3⟩

/-- What the phase tells about the results. -/
structure PhaseOk (exit : Name) (s : St V) : Prop where
  fresh : ¬ Final s → s.results = []
  all : exit = "all".toList → s.phase = .left → Final s
  any : exit = "any".toList → s.event = true → ∃ t ∈ s.tasks, t.done = true
  anyLeft : exit = "any".toList → s.phase ≠ .leaving → ∃ t ∈ s.tasks, t.done = true

theorem done_step (exit : Name) {s : St V} (hp : s.phase ≠ .inside) (a : Act V)
    (h : ∃ t ∈ s.tasks, t.done = true) : ∃ t ∈ (step exit s a).tasks, t.done = true := by
  have key : ∀ (i : Nat) (t t' : Task V), s.tasks[i]? = some t → t.done = false →
      ∃ t'' ∈ s.tasks.set i t', t''.done = true := by
    intro i t t' ht hf
    obtain ⟨x, hx, hxd⟩ := h
    obtain ⟨j, hj, rfl⟩ := List.getElem_of_mem hx
    have hij : i ≠ j := by
      rintro rfl
      rw [List.getElem?_eq_getElem hj] at ht
      cases ht
      rw [hf] at hxd
      cases hxd
    refine ⟨s.tasks[j], ?_, hxd⟩
    refine List.mem_of_getElem? (i := j) ?_
    rw [List.getElem?_set_ne hij, List.getElem?_eq_getElem hj]
  cases a with
  | call c => simp only [step, if_neg hp]; exact h
  | exit => simp only [step, if_neg hp]; exact h
  | start i =>
    simp only [step]
    split
    · rename_i ht; exact key i _ _ ht rfl
    · exact h
  | finish i v =>
    simp only [step]
    split
    · rename_i ht; exact key i _ _ ht rfl
    · exact h
  | complete i =>
    simp only [step]
    split
    · rename_i ht; exact key i _ _ ht rfl
    · exact h
  | raise i =>
    simp only [step]
    split
    · rename_i ht; exact key i _ _ ht rfl
    · exact h
  | waitAll =>
    simp only [step]
    repeat' split
    all_goals exact h
  | proceed =>
    rcases proceed_cases exit s with h1 | ⟨_, _, _, h1⟩ | ⟨_, _, h1⟩ |
      ⟨_, _, _, _, _, _, _, _, _, h1⟩ <;> rw [h1] <;> exact h

theorem phaseOk_step (exit : Name) {s : St V} (h : PhaseOk exit s) (hp : s.phase ≠ .inside)
    (a : Act V) : PhaseOk exit (step exit s a) := by
  have hne : "all".toList ≠ "any".toList := by decide
  refine ⟨fun hf => ?_, fun he hl => ?_, fun he hv => ?_, fun he hl => ?_⟩
  · by_cases hF : Final s
    · exact absurd (final_step exit hF hp a).1 hf
    · have h0 := h.fresh hF
      by_cases hap : a = .proceed
      · subst hap
        rcases proceed_cases exit s with h1 | ⟨_, _, _, h1⟩ | ⟨_, hA, h1⟩ |
          ⟨_, _, _, _, _, _, _, _, _, h1⟩ <;> rw [h1] at hf ⊢
        · exact h0
        · exact h0
        · exact absurd ⟨hA, rfl⟩ hf
        · exact h0
      · revert hf
        cases a <;> simp only [step]
        all_goals repeat' split
        all_goals first
          | exact fun _ => h0
          | exact absurd rfl hap
  · by_cases hF : Final s
    · exact (final_step exit hF hp a).1
    · have h0 : s.phase ≠ .left := fun hl => hF (h.all he hl)
      revert hl
      cases a with
      | proceed =>
        rcases proceed_cases exit s with h1 | ⟨_, h2, _, h1⟩ | ⟨_, hA, h1⟩ |
          ⟨_, _, _, _, _, _, _, _, _, h1⟩ <;> rw [h1]
        · exact fun hl => absurd hl h0
        · exact absurd he h2
        · exact fun _ => ⟨hA, rfl⟩
        · exact fun hl => by cases hl
      | raise i => simp only [step]; split <;> exact fun hl => absurd hl h0
      | call c => simp only [step, if_neg hp]; exact fun hl => absurd hl h0
      | exit => simp only [step, if_neg hp]; exact fun hl => absurd hl h0
      | waitAll => simp only [step, if_neg h0]; exact fun hl => absurd hl h0
      | start i => simp only [step]; split <;> exact fun hl => absurd hl h0
      | finish i v => simp only [step]; split <;> exact fun hl => absurd hl h0
      | complete i => simp only [step]; split <;> exact fun hl => absurd hl h0
  · by_cases hs : s.event = true
    · exact done_step exit hp a (h.any he hs)
    · revert hv
      cases a with
      | complete i =>
        simp only [step]
        split
        · rename_i rs ht
          intro _
          have hlt : i < s.tasks.length := by
            rw [List.getElem?_eq_some_iff] at ht
            exact ht.1
          exact ⟨⟨[], none, rs, true, none⟩, List.mem_of_getElem? (List.getElem?_set_self hlt), rfl⟩
        · exact fun hv => absurd hv hs
      | proceed =>
        rcases proceed_cases exit s with h1 | ⟨_, _, _, h1⟩ | ⟨_, _, h1⟩ |
          ⟨_, _, _, _, _, _, _, _, _, h1⟩ <;> rw [h1] <;> exact fun hv => absurd hv hs
      | raise i => simp only [step]; split <;> exact fun hv => absurd hv hs
      | call c => simp only [step, if_neg hp]; exact fun hv => absurd hv hs
      | exit => simp only [step, if_neg hp]; exact fun hv => absurd hv hs
      | waitAll => simp only [step]; repeat' split
                   all_goals exact fun hv => absurd hv hs
      | start i => simp only [step]; split <;> exact fun hv => absurd hv hs
      | finish i v => simp only [step]; split <;> exact fun hv => absurd hv hs
  · by_cases hs : s.phase = .leaving
    · apply done_step exit hp a
      revert hl
      cases a with
      | proceed =>
        simp only [step, hs]
        rw [if_neg (by rw [he]; exact fun h => hne h.symm)]
        split
        · rename_i hv
          exact fun _ => h.any he hv
        · exact fun hl => absurd hs hl
      | call c => simp only [step, if_neg hp]; exact fun hl => absurd hs hl
      | exit => simp only [step, if_neg hp]; exact fun hl => absurd hs hl
      | waitAll =>
        simp only [step, hs, reduceCtorEq, if_false]
        exact fun hl => absurd rfl hl
      | raise i => simp only [step]; split <;> exact fun hl => absurd hs hl
      | start i => simp only [step]; split <;> exact fun hl => absurd hs hl
      | finish i v => simp only [step]; split <;> exact fun hl => absurd hs hl
      | complete i => simp only [step]; split <;> exact fun hl => absurd hs hl
    · exact done_step exit hp a (h.anyLeft he hs)

theorem phaseOk_after {exit : Name} {cs : List Call} (h : ValidExit exit) (hd : Distinct cs)
    (as : List (Act V)) : PhaseOk exit (after exit cs as) := by
  induction as using snoc_ind with
  | h0 =>
    obtain ⟨_, _, h3, h4, h5, h6, h7⟩ := after_nil (V := V) cs h
    refine ⟨fun _ => h4, fun he hl => ?_, fun _ hv => ?_, fun he hl => ?_⟩
    · rw [h7, if_neg (by rw [he]; decide)] at hl
      cases hl
    · rw [h5] at hv
      cases hv
    · rw [h7, if_neg (by rw [he]; decide)] at hl
      exact absurd rfl hl
  | h1 as a ih =>
    rw [after_append]
    exact phaseOk_step exit ih (after_ok h hd as).2 a

/-- **C19**, the results: when the block of an `Executor()` has been left, every coroutine has
returned, and `get_results()` has one entry per group, in the order of first use, with the results of
the group's coroutines in order. -/
theorem C19_results (cs : List Call) (as : List (Act V)) (hd : Distinct cs)
    (hl : (after "all".toList cs as).phase = .left) :
    (∀ c ∈ cs, Legal c → ∃ v, .finish c.coro.id v ∈ (after "all".toList cs as).log) ∧
    ∀ val, Returned val (after "all".toList cs as).log →
      (after "all".toList cs as).results = entries cs val := by
  have hf := (phaseOk_after (.inl rfl) hd as).all rfl hl
  rw [hf.2]
  exact results_expected (after_ok (.inl rfl) hd as).1 hf.1

/-- **C19**: no coroutine returns twice, so that there is always a function that tells what the
coroutines returned. -/
theorem C19_once (exit : Name) (cs : List Call) (as : List (Act V)) (hd : Distinct cs)
    (c : Call) (hc : c ∈ cs) (hcok : Legal c) (v v' : V)
    (h : .finish c.coro.id v ∈ (after exit cs as).log)
    (h' : .finish c.coro.id v' ∈ (after exit cs as).log) : v = v' := by
  obtain ⟨vs, h1, h2⟩ := C19_sequential exit cs as (key c) hd
  have hm : c.coro.id ∈ group cs (key c) := by
    unfold group
    refine List.mem_map_of_mem (f := fun c : Call => c.coro.id) ?_
    rw [List.mem_filter]
    exact ⟨hc, by simp [hcok]⟩
  have hnd : (group cs (key c)).Nodup := by
    unfold group
    exact List.Nodup.sublist (List.Sublist.map _ List.filter_sublist) hd
  have hkey : ∀ v, .finish c.coro.id v ∈ (after exit cs as).log →
      ∃ i : Nat, (group cs (key c))[i]? = some c.coro.id ∧ vs[i]? = some v := by
    intro v h
    have h3 : .finish c.coro.id v ∈ proj (group cs (key c)) (after exit cs as).log := by
      unfold proj
      rw [List.mem_filter]
      exact ⟨h, decide_eq_true hm⟩
    rcases h2 with h2 | ⟨c', _, h2 | h2⟩
    · rw [h2] at h3
      exact finish_mem_seqTrace.1 h3
    · rw [h2, List.mem_append] at h3
      rcases h3 with h3 | h3
      · exact finish_mem_seqTrace.1 h3
      · simp at h3
    · rw [h2, List.mem_append] at h3
      rcases h3 with h3 | h3
      · exact finish_mem_seqTrace.1 h3
      · simp at h3
  obtain ⟨i, h3, h4⟩ := hkey v h
  obtain ⟨j, h5, h6⟩ := hkey v' h'
  have hij : i = j := by
    rw [List.getElem?_eq_some_iff] at h3 h5
    obtain ⟨a1, a2⟩ := h3
    obtain ⟨b1, b2⟩ := h5
    exact (List.getElem_inj hnd).1 (a2.trans b2.symm)
  subst hij
  rw [h4] at h6
  exact Option.some.inj h6

/-- **C19**: nothing but the coroutines of accepted calls is run. -/
theorem C19_only (exit : Name) (cs : List Call) (as : List (Act V)) (hd : Distinct cs) (e : Ev V)
    (he : e ∈ (after exit cs as).log) : ∃ c ∈ cs, Legal c ∧ e.id = c.coro.id := by
  by_cases hv : ValidExit exit
  · have hmem : ∀ (i : Nat) (g : Name × List Entry), (table cs)[i]? = some g → ∀ n ∈ ids g.2,
        ∃ c ∈ cs, Legal c ∧ n = c.coro.id := by
      intro i g hg n hn
      rw [(ids_table hg).2, ids_members, List.mem_map] at hn
      obtain ⟨c, hc, rfl⟩ := hn
      unfold members at hc
      rw [List.mem_filter] at hc
      exact ⟨c, hc.1, (legal_iff c).1 (Bool.and_eq_true_iff.1 hc.2).1, rfl⟩
    induction as using snoc_ind with
    | h0 =>
      rw [(after_nil (V := V) cs hv).2.2.2.2.2.1] at he
      cases he
    | h1 as a ih =>
      obtain ⟨hok, hp⟩ := after_ok (V := V) hv hd as
      rw [after_append] at he
      generalize after exit cs as = s at ih hok hp he
      replace he : e ∈ (step exit s a).log := he
      revert he
      cases a with
      | start i =>
        simp only [step]
        split
        · rename_i e' es rs ht
          intro he
          rcases List.mem_append.1 he with he | he
          · exact ih he
          · rw [List.mem_singleton] at he
            subst he
            obtain ⟨g, hg⟩ := group_of hok ht
            obtain ⟨pre, h1, _⟩ := hok.tasks i g _ hg ht
            exact hmem i g hg _ (by rw [h1]; simp [ids, Ev.id])
        · exact ih
      | finish i v =>
        simp only [step]
        split
        · rename_i es c rs ht
          intro he
          rcases List.mem_append.1 he with he | he
          · exact ih he
          · rw [List.mem_singleton] at he
            subst he
            obtain ⟨g, hg⟩ := group_of hok ht
            obtain ⟨pre, h1, _⟩ := hok.tasks i g _ hg ht
            exact hmem i g hg _ (by rw [h1]; simp [Ev.id])
        · exact ih
      | raise i =>
        simp only [step]
        split
        · rename_i es c rs ht
          intro he
          rcases List.mem_append.1 he with he | he
          · exact ih he
          · rw [List.mem_singleton] at he
            subst he
            obtain ⟨g, hg⟩ := group_of hok ht
            obtain ⟨pre, h1, _⟩ := hok.tasks i g _ hg ht
            exact hmem i g hg _ (by rw [h1]; simp [Ev.id])
        · exact ih
      | complete i =>
        simp only [step]
        split <;> exact ih
      | call c => simp only [step, if_neg hp]; exact ih
      | exit => simp only [step, if_neg hp]; exact ih
      | waitAll =>
        simp only [step]
        repeat' split
        all_goals exact ih
      | proceed =>
        rcases proceed_cases exit s with h1 | ⟨_, _, _, h1⟩ | ⟨_, _, h1⟩ |
          ⟨_, _, _, _, _, _, _, _, _, h1⟩ <;> rw [h1] <;> exact ih
  · rw [(after_error cs hv as).1] at he
    cases he

/-- **C19**, the results in the words of the property.  Missing: sequences with rejected calls
(`C19_rejected_violated`). -/
theorem C19_expected_partial (cs : List Call) (as : List (Act V)) (hd : Distinct cs)
    (hacc : Accepted cs) (hl : (after "all".toList cs as).phase = .left) (val : Nat → V)
    (hv : Returned val (after "all".toList cs as).log) :
    (after "all".toList cs as).results = expected cs val := by
  unfold expected
  rw [(C19_results cs as hd hl).2 val hv, List.filter_eq_self.2 fun c hc => decide_eq_true (hacc c hc)]

/-- **C19 is false** for sequences with a call that was rejected: its group stays, and
`get_results()` has an entry for it. -/
theorem C19_rejected_violated :
    let c : Call := ⟨⟨0, "f".toList, none⟩, some 1, none, none⟩
    ¬ Legal c ∧ (after "all".toList [c] [.complete 0, .proceed] : St Nat).phase = .left ∧
      expected [c] (fun _ => 0) = [] ∧
      (after "all".toList [c] [.complete 0, .proceed] : St Nat).results =
        [("f".toList, .many [])] := by
  decide +kernel

/-- **C20**, `exit="all"`: the results are there on leaving the block, and nothing changes them. -/
theorem C20_all (cs : List Call) (as as' : List (Act V)) (hd : Distinct cs)
    (hl : (after "all".toList cs as).phase = .left) (val : Nat → V)
    (hv : Returned val (after "all".toList cs as).log) :
    (after "all".toList cs (as ++ as')).results = entries cs val := by
  rw [after_append]
  rw [(final_run _ ((phaseOk_after (.inl rfl) hd as).all rfl hl) (after_ok (.inl rfl) hd as).2 as').2.1]
  exact (C19_results cs as hd hl).2 val hv

theorem empty_before {exit : Name} {cs : List Call} (hne : exit ≠ "all".toList) (as : List (Act V))
    (hw : .waitAll ∉ as) :
    (after exit cs as).results = [] ∧ (after exit cs as).phase ≠ .waiting ∧
      (after exit cs as).phase ≠ .inside := by
  by_cases hv : ValidExit exit
  · induction as using snoc_ind with
    | h0 =>
      obtain ⟨_, h2, _, h4, _, _, h7⟩ := after_nil (V := V) cs hv
      refine ⟨h4, ?_, h2⟩
      rw [h7]
      split <;> simp
    | h1 as a ih =>
      rw [List.mem_append, not_or] at hw
      obtain ⟨h1, h2, h3⟩ := ih hw.1
      rw [after_append]
      generalize after exit cs as = s at h1 h2 h3
      show (step exit s a).results = [] ∧ (step exit s a).phase ≠ .waiting ∧
        (step exit s a).phase ≠ .inside
      refine ⟨?_, ?_, phase_step exit h3 a⟩
      · cases a with
        | proceed =>
          rcases proceed_cases exit s with h | ⟨_, _, _, h⟩ | ⟨h4, _, _⟩ |
            ⟨_, _, _, _, _, _, _, _, _, h⟩
          · rw [h]; exact h1
          · rw [h]; exact h1
          · rcases h4 with ⟨_, h4⟩ | h4
            · exact absurd h4 hne
            · exact absurd h4 h2
          · rw [h]; exact h1
        | raise i => simp only [step]; split <;> exact h1
        | waitAll => simp at hw
        | call c => simp only [step, if_neg h3]; exact h1
        | exit => simp only [step, if_neg h3]; exact h1
        | start i => simp only [step]; split <;> exact h1
        | finish i v => simp only [step]; split <;> exact h1
        | complete i => simp only [step]; split <;> exact h1
      · cases a with
        | proceed =>
          rcases proceed_cases exit s with h | ⟨_, _, _, h⟩ | ⟨_, _, h⟩ |
            ⟨_, _, _, _, _, _, _, _, _, h⟩ <;> rw [h]
          · exact h2
          · simp
          · simp
          · simp
        | raise i => simp only [step]; split <;> exact h2
        | waitAll => simp at hw
        | call c => simp only [step, if_neg h3]; exact h2
        | exit => simp only [step, if_neg h3]; exact h2
        | start i => simp only [step]; split <;> exact h2
        | finish i v => simp only [step]; split <;> exact h2
        | complete i => simp only [step]; split <;> exact h2
  · obtain ⟨_, _, h3, h4⟩ := after_error (V := V) cs hv as
    exact ⟨h3, by rw [h4]; simp, by rw [h4]; simp⟩

/-- **C20**, `exit="none"` and `exit="any"`: before `wait_all()` was called, `get_results()` is
empty. -/
theorem C20_empty (exit : Name) (cs : List Call) (as : List (Act V)) (hne : exit ≠ "all".toList)
    (hw : .waitAll ∉ as) : (after exit cs as).results = [] := (empty_before hne as hw).1

theorem raised_step (exit : Name) {s : St V} {c : Nat} (h : s.phase = .raised c) (a : Act V) :
    (step exit s a).phase = s.phase := by
  cases a with
  | proceed =>
    rcases proceed_cases exit s with h1 | ⟨h2, _, _, h1⟩ | ⟨h2, _, h1⟩ | ⟨h2, _⟩
    · rw [h1]
    · rw [h] at h2; cases h2
    · rw [h] at h2; simp at h2
    · rw [h] at h2; simp at h2
  | _ =>
    simp only [step, h, reduceCtorEq, if_false]
    try split
    all_goals first | rfl | exact h

/-- While `wait_all()` runs, and afterwards. -/
theorem wait_step {exit : Name} {s : St V} (hp : s.phase ≠ .inside)
    (h : s.phase = .waiting ∨ (∃ c, s.phase = .raised c) ∨ Final s) (a : Act V) :
    (step exit s a).phase = .waiting ∨ (∃ c, (step exit s a).phase = .raised c) ∨
      Final (step exit s a) := by
  rcases h with h | ⟨c, h⟩ | h
  · cases a with
    | proceed =>
      rcases proceed_cases exit s with h1 | ⟨h2, _, _, h1⟩ | ⟨_, hA, h1⟩ |
        ⟨_, _, _, _, c, _, _, _, _, h1⟩
      · rw [h1]; exact .inl h
      · rw [h] at h2; cases h2
      · rw [h1]; exact .inr (.inr ⟨hA, rfl⟩)
      · rw [h1]; exact .inr (.inl ⟨c, rfl⟩)
    | raise i => simp only [step]; split <;> exact .inl h
    | waitAll => simp [step, h]
    | call c => simp [step, h]
    | exit => simp [step, h]
    | start i => simp only [step]; split <;> exact .inl h
    | finish i v => simp only [step]; split <;> exact .inl h
    | complete i => simp only [step]; split <;> exact .inl h
  · refine .inr (.inl ⟨c, ?_⟩)
    rw [← h]
    exact raised_step exit h a
  · exact .inr (.inr (final_step exit h hp a).1)

theorem wait_inv {exit : Name} {cs : List Call} (as as' : List (Act V)) (hv : ValidExit exit)
    (hd : Distinct cs) (hl : (after exit cs as).phase = .left) :
    (after exit cs (as ++ .waitAll :: as')).phase = .waiting ∨
      (∃ c, (after exit cs (as ++ .waitAll :: as')).phase = .raised c) ∨
      Final (after exit cs (as ++ .waitAll :: as')) := by
  have h1 : (step exit (after exit cs as) .waitAll).phase = .waiting ∨
      (∃ c, (step exit (after exit cs as) .waitAll).phase = .raised c) ∨
      Final (step exit (after exit cs as) .waitAll) := by
    have hph := phaseOk_after (V := V) hv hd as
    simp only [step, hl, if_true]
    split
    · rename_i h0
      right
      right
      rcases h0 with h0 | h0
      · exact hph.all h0 hl
      · apply Classical.byContradiction
        intro hF
        apply hF
        refine ⟨by unfold allDone; rw [h0]; rfl, ?_⟩
        rw [hph.fresh hF, h0]
        unfold setResults
        simp
    · exact .inl rfl
  induction as' using snoc_ind with
  | h0 => rw [after_append]; exact h1
  | h1 as' a ih =>
    have : as ++ Act.waitAll :: (as' ++ [a]) = (as ++ Act.waitAll :: as') ++ [a] := by simp
    rw [this, after_append]
    exact wait_step (after_ok hv hd _).2 ih a

theorem wait_final {exit : Name} {cs : List Call} (as as' : List (Act V)) (hv : ValidExit exit)
    (hd : Distinct cs) (hl : (after exit cs as).phase = .left)
    (hl' : (after exit cs (as ++ .waitAll :: as')).phase = .left) :
    Final (after exit cs (as ++ .waitAll :: as')) := by
  rcases wait_inv as as' hv hd hl with h3 | ⟨c, h3⟩ | h3
  · rw [hl'] at h3
    cases h3
  · rw [hl'] at h3
    cases h3
  · exact h3

/-- **C20**, `wait_all()`: when a call of `wait_all()` behind the block has returned, the results are
those that `exit="all"` gives, whatever the exit mode. -/
theorem C20_wait_all (exit : Name) (cs : List Call) (as as' : List (Act V)) (hv : ValidExit exit)
    (hd : Distinct cs) (hl : (after exit cs as).phase = .left)
    (hl' : (after exit cs (as ++ .waitAll :: as')).phase = .left) :
    (∀ c ∈ cs, Legal c → ∃ v, .finish c.coro.id v ∈ (after exit cs (as ++ .waitAll :: as')).log) ∧
    ∀ val, Returned val (after exit cs (as ++ .waitAll :: as')).log →
      (after exit cs (as ++ .waitAll :: as')).results = entries cs val := by
  have h3 := wait_final as as' hv hd hl hl'
  rw [h3.2]
  exact results_expected (after_ok hv hd _).1 h3.1

/-- **C20**, further calls: once `wait_all()` has returned, nothing changes the results, in particular
no further calls of `wait_all()`. -/
theorem C20_again (exit : Name) (cs : List Call) (as as' as'' : List (Act V)) (hv : ValidExit exit)
    (hd : Distinct cs) (hl : (after exit cs as).phase = .left)
    (hl' : (after exit cs (as ++ .waitAll :: as')).phase = .left) :
    (after exit cs ((as ++ .waitAll :: as') ++ as'')).results =
      (after exit cs (as ++ .waitAll :: as')).results := by
  rw [after_append]
  exact (final_run exit (wait_final as as' hv hd hl hl') (after_ok hv hd _).2 as'').2.1

/-- The coroutines of a group whose task has returned have returned. -/
theorem done_group {cs : List Call} {s : St V} (hok : TasksOk (table cs) s) {i : Nat} {t : Task V}
    (ht : s.tasks[i]? = some t) (htd : t.done = true) :
    ∃ g, (groupsOf cs)[i]? = some g ∧ ∀ c ∈ group cs g, ∃ v, .finish c v ∈ s.log := by
  obtain ⟨g, hg⟩ := group_of hok ht
  obtain ⟨pre, h1, h2, h3, h4, _⟩ := hok.tasks i g _ hg ht
  obtain ⟨h5, h5', h6⟩ := h4 htd
  obtain ⟨h7, h8⟩ := ids_table hg
  have hids : ids g.2 = group cs g.1 := by rw [h8, ids_members, members_group]
  refine ⟨g.1, h7, fun c hc => ?_⟩
  rw [h5, h5', h6] at h1
  rw [h5, h5'] at h3
  simp only [Option.toList_none, List.map_nil, List.flatMap_nil, List.nil_append,
    List.append_nil] at h1 h3
  have hpre : pre = group cs g.1 := by
    rw [← hids, h1]
    simp [ids]
  rw [← hpre] at hc
  obtain ⟨j, hj, rfl⟩ := List.getElem_of_mem hc
  refine ⟨t.results[j]'(by rw [← h2]; exact hj), ?_⟩
  have : Ev.finish pre[j] (t.results[j]'(by rw [← h2]; exact hj)) ∈ proj (ids g.2) s.log := by
    rw [h3, finish_mem_seqTrace]
    exact ⟨j, List.getElem?_eq_getElem _, List.getElem?_eq_getElem _⟩
  unfold proj at this
  rw [List.mem_filter] at this
  exact this.1

/-- **C20**, `exit="any"`: the block is left only when all coroutines of some group have returned. -/
theorem C20_any (cs : List Call) (as : List (Act V)) (hd : Distinct cs)
    (hl : (after "any".toList cs as).phase = .left) :
    ∃ g ∈ cs.map key, ∀ c ∈ group cs g, ∃ v, .finish c v ∈ (after "any".toList cs as).log := by
  obtain ⟨hok, _⟩ := after_ok (V := V) (.inr (.inr rfl)) hd as
  obtain ⟨t, ht, htd⟩ := (phaseOk_after (V := V) (.inr (.inr rfl)) hd as).anyLeft rfl (by rw [hl]; simp)
  obtain ⟨i, hi, rfl⟩ := List.getElem_of_mem ht
  obtain ⟨g, h7, h⟩ := done_group hok (List.getElem?_eq_getElem hi) htd
  exact ⟨g, firsts_mem.1 (by rw [← groupsOf_eq]; exact List.mem_of_getElem? h7), h⟩

/-- **C20**, any other exit value: `ValueError`, and no coroutine is ever started. -/
theorem C20_invalid (exit : Name) (cs : List Call) (as : List (Act V)) (hv : ¬ ValidExit exit) :
    (after exit cs as).phase = .error ∧ (after exit cs as).log = [] :=
  ⟨(after_error cs hv as).2.2.2, (after_error cs hv as).1⟩

/-! ### C68 -/

/-- Progress of the group tasks and of the code that waits for them. -/
def Progress : Act V → Prop
  | .start _ | .finish _ _ | .raise _ | .complete _ | .proceed => True
  | _ => False

/-- Every step makes progress. -/
def Effective (exit : Name) : St V → List (Act V) → Prop
  | _, [] => True
  | s, a :: as => Progress a ∧ step exit s a ≠ s ∧ Effective exit (step exit s a) as

/-- What is left to do for a group task. -/
def Task.work (t : Task V) : Nat :=
  2 * t.todo.length + (if t.cur.isSome then 1 else 0) + (if t.done then 0 else 1)

def work (s : St V) : Nat :=
  (s.tasks.map Task.work).sum +
    (match s.phase with | .leaving => 1 | .waiting => 1 | _ => 0)

theorem sum_set {l : List (Task V)} {i : Nat} {t t' : Task V} (h : l[i]? = some t)
    (hw : t'.work < t.work) : ((l.set i t').map Task.work).sum < (l.map Task.work).sum := by
  induction l generalizing i with
  | nil => simp at h
  | cons a l ih =>
    cases i with
    | zero =>
      simp only [List.getElem?_cons_zero, Option.some.injEq] at h
      subst h
      simp only [List.set_cons_zero, List.map_cons, List.sum_cons]
      omega
    | succ i =>
      simp only [List.getElem?_cons_succ] at h
      have := ih h
      simp only [List.set_cons_succ, List.map_cons, List.sum_cons]
      omega

theorem work_step {exit : Name} {s : St V} {a : Act V} (hp : Progress a) (hne : step exit s a ≠ s) :
    work (step exit s a) < work s := by
  revert hne
  cases a with
  | call => cases hp
  | exit => cases hp
  | waitAll => cases hp
  | start i =>
    simp only [step]
    split
    · rename_i e es rs ht
      intro _
      have := sum_set (t' := ⟨es, some e.coro, rs, false, none⟩) ht (by simp [Task.work]; omega)
      unfold work
      simp only
      omega
    · exact fun h => absurd rfl h
  | finish i v =>
    simp only [step]
    split
    · rename_i es c rs ht
      intro _
      have := sum_set (t' := ⟨es, none, rs ++ [v], false, none⟩) ht (by simp [Task.work])
      unfold work
      simp only
      omega
    · exact fun h => absurd rfl h
  | raise i =>
    simp only [step]
    split
    · rename_i es c rs ht
      intro _
      have := sum_set (t' := ⟨es, none, rs, false, some c.id⟩) ht (by simp [Task.work])
      unfold work
      simp only
      omega
    · exact fun h => absurd rfl h
  | complete i =>
    simp only [step]
    split
    · rename_i rs ht
      intro _
      have := sum_set (t' := ⟨[], none, rs, true, none⟩) ht (by simp [Task.work])
      unfold work
      simp only
      omega
    · exact fun h => absurd rfl h
  | proceed =>
    rcases proceed_cases exit s with h1 | ⟨h2, _, _, h1⟩ | ⟨h2, _, h1⟩ |
      ⟨h2, _, _, _, _, _, _, _, _, h1⟩
    · exact fun h => absurd h1 h
    · rw [h1]; intro _; unfold work; simp [h2]
    · rw [h1]; intro _; unfold work; rcases h2 with ⟨h2, _⟩ | h2 <;> simp [h2]
    · rw [h1]; intro _; unfold work; rcases h2 with ⟨h2, _⟩ | h2 <;> simp [h2]

theorem effective_length {exit : Name} {s : St V} {as : List (Act V)} (h : Effective exit s as) :
    as.length ≤ work s := by
  induction as generalizing s with
  | nil => simp
  | cons a as ih =>
    obtain ⟨h1, h2, h3⟩ := h
    have := ih h3
    have := work_step h1 h2
    simp only [List.length_cons]
    omega

/-- A group task that has not ended can go on. -/
theorem task_progress (exit : Name) (v : V) {s : St V} {i : Nat} {t : Task V}
    (ht : s.tasks[i]? = some t) (hd : t.done = false) (he : t.err = none) : ∃ a, Progress a ∧ step exit s a ≠ s := by
  have hlt : i < s.tasks.length := by
    rw [List.getElem?_eq_some_iff] at ht
    exact ht.1
  have key : ∀ t' : Task V, t' ≠ t → s.tasks.set i t' ≠ s.tasks := by
    intro t' hne h
    have := List.getElem?_set_self (a := t') hlt
    rw [h, ht] at this
    exact hne (Option.some.inj this).symm
  obtain ⟨todo, cur, rs, done, err⟩ := t
  cases hd
  cases he
  cases cur with
  | some c =>
    refine ⟨.finish i v, trivial, fun h => ?_⟩
    simp only [step, ht] at h
    exact key _ (by simp) (congrArg St.tasks h)
  | none =>
    cases todo with
    | nil =>
      refine ⟨.complete i, trivial, fun h => ?_⟩
      simp only [step, ht] at h
      exact key _ (by simp) (congrArg St.tasks h)
    | cons e es =>
      refine ⟨.start i, trivial, fun h => ?_⟩
      simp only [step, ht] at h
      exact key _ (by simp) (congrArg St.tasks h)

/-- In the mode `any` a done task has set the event. -/
theorem event_of_done {exit : Name} {cs : List Call} (hd : Distinct cs) (h : exit = "any".toList)
    (as : List (Act V)) :
    (∃ t ∈ (after exit cs as).tasks, t.done = true) → (after exit cs as).event = true := by
  have hv : ValidExit exit := .inr (.inr h)
  induction as using snoc_ind with
  | h0 =>
    obtain ⟨_, _, h3, _⟩ := after_nil (V := V) cs hv
    rw [h3]
    rintro ⟨t, ht, htd⟩
    unfold newTasks at ht
    obtain ⟨g, _, rfl⟩ := List.mem_map.1 ht
    cases htd
  | h1 as a ih =>
    rw [after_append]
    have hp := (after_ok (V := V) hv hd as).2
    generalize after exit cs as = s at ih hp
    show (∃ t ∈ (step exit s a).tasks, t.done = true) → (step exit s a).event = true
    have key : ∀ (i : Nat) (t : Task V), t.done = false →
        (∃ t' ∈ s.tasks.set i t, t'.done = true) → s.event = true := by
      intro i t ht ⟨t', h1, h2⟩
      rcases List.mem_or_eq_of_mem_set h1 with h1 | rfl
      · exact ih ⟨t', h1, h2⟩
      · rw [ht] at h2
        cases h2
    cases a with
    | complete i =>
      simp only [step]
      split
      · intro _
        rw [if_pos h]
      · exact ih
    | proceed =>
      rcases proceed_cases exit s with h1 | ⟨_, _, _, h1⟩ | ⟨_, _, h1⟩ |
        ⟨_, _, _, _, _, _, _, _, _, h1⟩ <;> rw [h1] <;> exact ih
    | raise i =>
      simp only [step]
      split
      · exact key _ _ rfl
      · exact ih
    | waitAll =>
      simp only [step]
      repeat' split
      all_goals exact ih
    | call c => simp only [step, if_neg hp]; exact ih
    | exit => simp only [step, if_neg hp]; exact ih
    | start i =>
      simp only [step]
      split
      · exact key _ _ rfl
      · exact ih
    | finish i v =>
      simp only [step]
      split
      · exact key _ _ rfl
      · exact ih

/-- When no step is possible, all group tasks have ended, and the test waits only if all groups of an
executor with `exit="any"` ended with exceptions. -/
theorem stuck_phase {exit : Name} {cs : List Call} (as : List (Act V)) (v : V)
    (hv : ValidExit exit) (hd : Distinct cs)
    (hstuck : ∀ a, Progress a → step exit (after exit cs as) a = after exit cs as) :
    (∀ t ∈ (after exit cs as).tasks, t.done = true ∨ t.err ≠ none) ∧
    ((after exit cs as).phase = .left ∨ (∃ c, (after exit cs as).phase = .raised c) ∨
      exit = "any".toList ∧ (after exit cs as).phase = .leaving ∧
        ∀ t ∈ (after exit cs as).tasks, t.err ≠ none) := by
  obtain ⟨hok, hin⟩ := after_ok (V := V) hv hd as
  have hev := event_of_done (V := V) (exit := exit) hd
  have hnerr : (after exit cs as).phase ≠ .error := by
    clear hstuck hok hin
    induction as using snoc_ind with
    | h0 =>
      rw [(after_nil (V := V) cs hv).2.2.2.2.2.2]
      split <;> simp
    | h1 l a ih =>
      rw [after_append]
      have hp := (after_ok (V := V) hv hd l).2
      generalize after exit cs l = s at ih hp
      show (step exit s a).phase ≠ .error
      by_cases hap : a = .proceed
      · subst hap
        rcases proceed_cases exit s with h1 | ⟨_, _, _, h1⟩ | ⟨_, _, h1⟩ |
          ⟨_, _, _, _, _, _, _, _, _, h1⟩ <;> rw [h1]
        · exact ih
        all_goals simp
      · cases a <;> simp only [step]
        all_goals repeat' split
        all_goals first
          | exact ih
          | exact absurd ‹s.phase = .inside› hp
          | exact absurd rfl hap
          | simp
  have hnl : exit = "none".toList → (after exit cs as).phase ≠ .leaving := by
    intro hn
    clear hstuck hok hin hnerr
    induction as using snoc_ind with
    | h0 =>
      rw [(after_nil (V := V) cs hv).2.2.2.2.2.2, if_pos hn]
      simp
    | h1 l a ih =>
      rw [after_append]
      have hp := (after_ok (V := V) hv hd l).2
      generalize after exit cs l = s at ih hp
      show (step exit s a).phase ≠ .leaving
      by_cases hap : a = .proceed
      · subst hap
        rcases proceed_cases exit s with h1 | ⟨_, _, _, h1⟩ | ⟨_, _, h1⟩ |
          ⟨_, _, _, _, _, _, _, _, _, h1⟩ <;> rw [h1]
        · exact ih
        all_goals simp
      · cases a <;> simp only [step]
        all_goals repeat' split
        all_goals first
          | exact ih
          | exact absurd ‹s.phase = .inside› hp
          | exact absurd rfl hap
          | simp
  have hev := fun h => hev h as
  generalize after exit cs as = s at *
  have hall : ∀ t ∈ s.tasks, t.done = true ∨ t.err ≠ none := by
    intro t ht
    obtain ⟨i, hi, rfl⟩ := List.getElem_of_mem ht
    cases hdn : s.tasks[i].done with
    | true => exact .inl rfl
    | false =>
      right
      intro he
      obtain ⟨a, h1, h2⟩ := task_progress exit v (List.getElem?_eq_getElem hi) hdn he
      exact absurd (hstuck a h1) h2
  refine ⟨hall, ?_⟩
  have hpr := hstuck .proceed trivial
  have haw : awaited s ≠ s ∨ s.phase = .left ∨ ∃ c, s.phase = .raised c := by
    rcases awaited_cases s with ⟨_, h⟩ | ⟨_, _, _, c, _, _, _, _, h⟩ | ⟨t, h1, h2, h3, _⟩
    · by_cases hl : s.phase = .left
      · exact .inr (.inl hl)
      · left
        intro h'
        rw [h] at h'
        exact hl (congrArg St.phase h').symm
    · by_cases hl : s.phase = .raised c
      · exact .inr (.inr ⟨c, hl⟩)
      · left
        intro h'
        rw [h] at h'
        exact hl (congrArg St.phase h').symm
    · rcases hall t h1 with h | h
      · rw [h2] at h; cases h
      · exact absurd h3 h
  cases hphase : s.phase with
  | left => exact .inl rfl
  | raised c => exact .inr (.inl ⟨c, rfl⟩)
  | inside => exact absurd hphase hin
  | error => exact absurd hphase hnerr
  | waiting =>
    simp only [step, hphase] at hpr
    rcases haw with h | h | ⟨c, h⟩
    · exact absurd hpr h
    · rw [hphase] at h; cases h
    · rw [hphase] at h; cases h
  | leaving =>
    by_cases hea : exit = "all".toList
    · simp only [step, hphase] at hpr
      rw [if_pos hea] at hpr
      rcases haw with h | h | ⟨c, h⟩
      · exact absurd hpr h
      · rw [hphase] at h; cases h
      · rw [hphase] at h; cases h
    · have hany : exit = "any".toList := by
        rcases hv with h | h | h
        · exact absurd h hea
        · exact absurd hphase (hnl h)
        · exact h
      refine .inr (.inr ⟨hany, rfl, fun t ht => ?_⟩)
      rcases hall t ht with h | h
      · exfalso
        simp only [step, hphase] at hpr
        rw [if_neg hea, if_pos (hev hany ⟨t, ht, h⟩)] at hpr
        have := congrArg St.phase hpr
        rw [hphase] at this
        cases this
      · exact h

/-- A group task ended with the exception of a coroutine of the group. -/
theorem err_raise {cs : List Call} {s : St V} (hok : TasksOk (table cs) s) {i : Nat} {t : Task V}
    {c : Nat} (ht : s.tasks[i]? = some t) (he : t.err = some c) :
    ∃ g, (groupsOf cs)[i]? = some g ∧ c ∈ group cs g ∧ .raise c ∈ s.log := by
  obtain ⟨g, hg⟩ := group_of hok ht
  obtain ⟨h7, h8⟩ := ids_table hg
  obtain ⟨pre, h1, h2, h3, h4, h5⟩ := hok.tasks i g _ hg ht
  have hids : ids g.2 = group cs g.1 := by rw [h8, ids_members, members_group]
  refine ⟨g.1, h7, by rw [← hids, h1, he]; simp, ?_⟩
  have : Ev.raise c ∈ proj (ids g.2) s.log := by rw [h3, he]; simp
  unfold proj at this
  exact (List.mem_filter.1 this).1

/-- A group task that has ended stays as it is. -/
theorem ended_step (exit : Name) {s : St V} (hp : s.phase ≠ .inside) {i : Nat} {t : Task V}
    (ht : s.tasks[i]? = some t) (he : t.done = true ∨ t.err ≠ none) (a : Act V) :
    (step exit s a).tasks[i]? = some t := by
  have key : ∀ (j : Nat) (x y : Task V), s.tasks[j]? = some x → x.done = false → x.err = none →
      (s.tasks.set j y)[i]? = some t := by
    intro j x y hx h1 h2
    have hij : j ≠ i := by
      rintro rfl
      rw [ht] at hx
      cases hx
      rcases he with he | he
      · rw [h1] at he; cases he
      · exact he h2
    rw [List.getElem?_set_ne hij]
    exact ht
  cases a with
  | call c => simp only [step, if_neg hp]; exact ht
  | exit => simp only [step, if_neg hp]; exact ht
  | start j =>
    simp only [step]
    split
    · rename_i hx; exact key j _ _ hx rfl rfl
    · exact ht
  | finish j v =>
    simp only [step]
    split
    · rename_i hx; exact key j _ _ hx rfl rfl
    · exact ht
  | raise j =>
    simp only [step]
    split
    · rename_i hx; exact key j _ _ hx rfl rfl
    · exact ht
  | complete j =>
    simp only [step]
    split
    · rename_i hx; exact key j _ _ hx rfl rfl
    · exact ht
  | waitAll =>
    simp only [step]
    repeat' split
    all_goals exact ht
  | proceed =>
    rcases proceed_cases exit s with h1 | ⟨_, _, _, h1⟩ | ⟨_, _, h1⟩ |
      ⟨_, _, _, _, _, _, _, _, _, h1⟩ <;> rw [h1] <;> exact ht

/-- The exception that is raised is that of the first group that did not return. -/
theorem raised_first {exit : Name} {cs : List Call} (hv : ValidExit exit) (hd : Distinct cs)
    (as : List (Act V)) {c : Nat} (h : (after exit cs as).phase = .raised c) :
    ∃ (i : Nat) (t : Task V), (after exit cs as).tasks[i]? = some t ∧ t.err = some c ∧
      ∀ j < i, ∀ t', (after exit cs as).tasks[j]? = some t' → t'.done = true := by
  induction as using snoc_ind with
  | h0 =>
    rw [(after_nil (V := V) cs hv).2.2.2.2.2.2] at h
    split at h <;> cases h
  | h1 as a ih =>
    rw [after_append] at h ⊢
    obtain ⟨hok, hp⟩ := after_ok (V := V) hv hd as
    generalize after exit cs as = s at ih h hok hp
    replace h : (step exit s a).phase = .raised c := h
    show ∃ (i : Nat) (t : Task V), (step exit s a).tasks[i]? = some t ∧ t.err = some c ∧
      ∀ j < i, ∀ t', (step exit s a).tasks[j]? = some t' → t'.done = true
    have hkeep : s.phase = .raised c → ∃ (i : Nat) (t : Task V), (step exit s a).tasks[i]? = some t ∧
        t.err = some c ∧ ∀ j < i, ∀ t', (step exit s a).tasks[j]? = some t' → t'.done = true := by
      intro hs
      obtain ⟨i, t, h1, h2, h3⟩ := ih hs
      refine ⟨i, t, ended_step exit hp h1 (.inr (by rw [h2]; simp)) a, h2, fun j hj t' ht' => ?_⟩
      have hjl : j < s.tasks.length := by
        have := (List.getElem?_eq_some_iff.1 h1).1
        omega
      have hjd := h3 j hj _ (List.getElem?_eq_getElem hjl)
      rw [ended_step exit hp (List.getElem?_eq_getElem hjl) (.inl hjd) a] at ht'
      cases ht'
      exact hjd
    by_cases hap : a = .proceed
    · subst hap
      rcases proceed_cases exit s with h1 | ⟨_, _, _, h1⟩ | ⟨_, _, h1⟩ |
        ⟨_, l, t, r, c', h2, h3, _, h4, h1⟩
      · apply hkeep
        rw [← h, h1]
      · rw [h1] at h; cases h
      · rw [h1] at h; cases h
      · rw [h1] at h ⊢
        cases h
        refine ⟨l.length, t, ?_, h4, fun j hj t' ht' => ?_⟩
        · show s.tasks[l.length]? = some t
          rw [h2]
          simp
        · replace ht' : s.tasks[j]? = some t' := ht'
          rw [h2, List.getElem?_append_left hj] at ht'
          exact h3 _ (List.mem_of_getElem? ht')
    · apply hkeep
      revert h
      cases a with
      | proceed => exact absurd rfl hap
      | call c => simp only [step, if_neg hp]; exact id
      | exit => simp only [step, if_neg hp]; exact id
      | waitAll =>
        simp only [step]
        repeat' split
        all_goals first | exact id | (intro h; cases h)
      | _ =>
        simp only [step]
        split <;> exact id

theorem raised_log {exit : Name} {cs : List Call} (hv : ValidExit exit) (hd : Distinct cs)
    (as : List (Act V)) {c : Nat} (h : (after exit cs as).phase = .raised c) :
    .raise c ∈ (after exit cs as).log := by
  obtain ⟨i, t, h1, h2, _⟩ := raised_first hv hd as h
  exact (err_raise (after_ok hv hd as).1 h1 h2).choose_spec.2.2

/-- **C68**: the end of the block and `wait_all()` come to an end provided that all coroutines return.
Whatever the schedule, only finitely many steps are possible, and when none is possible and no
coroutine has raised an exception the test is not waiting.  Missing: an executor with `exit="any"` that
was given nothing (`C68_any_violated`). -/
theorem C68_ends_partial (exit : Name) (cs : List Call) (as : List (Act V)) (v : V)
    (hv : ValidExit exit) (hd : Distinct cs) (hne : exit = "any".toList → cs ≠ []) :
    ∃ n, ∀ as', Effective exit (after exit cs as) as' → as'.length ≤ n ∧
      ((∀ a, Progress a → step exit (run exit (after exit cs as) as') a =
          run exit (after exit cs as) as') →
        (∀ c, .raise c ∉ (run exit (after exit cs as) as').log) →
        (run exit (after exit cs as) as').phase = .left) := by
  refine ⟨work (after exit cs as), fun as' he => ⟨effective_length he, fun hstuck hnr => ?_⟩⟩
  rw [← after_append] at hstuck hnr ⊢
  have hok := (after_ok (V := V) hv hd (as ++ as')).1
  have hnone : ∀ t ∈ (after exit cs (as ++ as')).tasks, t.err = none := by
    intro t ht
    obtain ⟨i, hi, rfl⟩ := List.getElem_of_mem ht
    cases he : (after exit cs (as ++ as')).tasks[i].err with
    | none => rfl
    | some c =>
      obtain ⟨_, _, _, h⟩ := err_raise hok (List.getElem?_eq_getElem hi) he
      exact absurd h (hnr c)
  rcases (stuck_phase (as ++ as') v hv hd hstuck).2 with h | ⟨c, h⟩ | ⟨h1, _, h2⟩
  · exact h
  · exact absurd (raised_log hv hd _ h) (hnr c)
  · exfalso
    cases hcs : cs with
    | nil => exact hne h1 hcs
    | cons c cs' =>
      have hlen : 0 < (after exit cs (as ++ as')).tasks.length := by
        rw [hok.length, hcs]
        unfold table groupsOf
        simp [firsts]
      exact h2 _ (List.getElem_mem hlen) (hnone _ (List.getElem_mem hlen))

/-- **C68 is false** for `exit="any"` without coroutines: the test waits forever. -/
theorem C68_any_violated (as : List (Act V)) : (after "any".toList [] as).phase = .leaving := by
  have : (after "any".toList [] as).phase = .leaving ∧ (after "any".toList [] as).tasks = [] ∧
      (after "any".toList [] as).event = false := by
    induction as using snoc_ind with
    | h0 =>
      obtain ⟨_, _, h3, _, h5, _, h7⟩ := after_nil (V := V) [] (.inr (.inr rfl))
      exact ⟨by rw [h7]; rfl, h3, h5⟩
    | h1 as a ih =>
      rw [after_append]
      obtain ⟨h1, h2, h3⟩ := ih
      generalize after "any".toList [] as = s at h1 h2 h3
      show (step _ s a).phase = .leaving ∧ (step _ s a).tasks = [] ∧ (step _ s a).event = false
      cases a with
      | proceed =>
        simp only [step, h1]
        rw [if_neg (by decide), if_neg (by simp [h3])]
        exact ⟨h1, h2, h3⟩
      | _ => simp [step, h1, h2, h3]
  exact this.1

/-! ### Witnesses -/

/-- A driver call, a call of the same driver, and a coroutine in a group of its own. -/
def demo : List Call :=
  [⟨⟨0, "write".toList, some "bus".toList⟩, some 3, none, none⟩,
   ⟨⟨1, "wait".toList, none⟩, none, none, some "w".toList⟩,
   ⟨⟨2, "write".toList, some "bus".toList⟩, none, some "dut_first".toList, none⟩]

/-- A schedule in which the groups are interleaved. -/
def sched : List (Act Nat) :=
  [.start 1, .start 0, .finish 0 70, .start 0, .finish 1 71, .complete 1, .finish 0 72, .complete 0]

/-- The hypotheses of C19 and of `C20_all`, and what the results are. -/
example : Distinct demo ∧ Accepted demo ∧ (after "all".toList demo (sched ++ [.proceed])).phase = .left ∧
    (after "all".toList demo (sched ++ [.proceed])).results =
      [("bus.write".toList, .many [70, 72]), ("w".toList, .one 71)] ∧
    expected demo (70 + ·) = [("bus.write".toList, .many [70, 72]), ("w".toList, .one 71)] ∧
    Returned (70 + ·) (after "all".toList demo sched).log := by
  refine ⟨by unfold Distinct; decide +kernel, by unfold Accepted; decide +kernel,
    by decide +kernel, by decide +kernel, by decide +kernel, ?_⟩
  intro c v h
  have : (after "all".toList demo sched).log = [.start 1, .start 0, .finish 0 70, .start 2,
      .finish 1 71, .finish 2 72] := by decide +kernel
  rw [this] at h
  simp at h
  rcases h with ⟨rfl, rfl⟩ | ⟨rfl, rfl⟩ | ⟨rfl, rfl⟩ <;> rfl

/-- `C20_empty`, `C20_wait_all` and `C20_again`: leaving at once, then waiting. -/
example : (after "none".toList demo (sched.take 3)).phase = .left ∧
    (after "none".toList demo (sched.take 3)).results = [] ∧
    (after "none".toList demo (sched.take 3 ++ .waitAll :: (sched.drop 3 ++ [.proceed]))).phase = .left ∧
    (after "none".toList demo (sched.take 3 ++ .waitAll :: (sched.drop 3 ++ [.proceed]))).results =
      [("bus.write".toList, .many [70, 72]), ("w".toList, .one 71)] := by decide +kernel

/-- `C20_any`: left when the second group is complete. -/
example : (after "any".toList demo (sched.take 6 ++ [.proceed])).phase = .left ∧
    (after "any".toList demo (sched.take 5 ++ [.proceed])).phase = .leaving := by decide +kernel

/-- `C20_invalid`. -/
example : ¬ ValidExit "first".toList := by unfold ValidExit; decide +kernel

/-- `C68_ends_partial`: a schedule in which every step makes progress. -/
example : (after "all".toList demo ([] : List (Act Nat))).phase = .leaving ∧
    work (after "all".toList demo ([] : List (Act Nat))) = 9 ∧
    (sched ++ [Act.proceed]).length = 9 := by
  decide +kernel

end Toffee.Executor
