import Verif.Model.Executor
import Verif.Lemmas.Dict

/-! Lemmas about the executor. -/

namespace Toffee.Executor

/-! ### Groups -/

/-- Distinct elements in the order of their first occurrence. -/
def firsts {α : Type} [DecidableEq α] : List α → List α
  | [] => []
  | x :: xs => x :: (firsts xs).filter fun y => y ≠ x

section
variable {α : Type} [DecidableEq α]

theorem firsts_mem {l : List α} {x : α} : x ∈ firsts l ↔ x ∈ l := by
  induction l with
  | nil => simp [firsts]
  | cons a l ih =>
    rw [firsts, List.mem_cons, List.mem_filter, ih, List.mem_cons]
    by_cases h : x = a <;> simp [h]

theorem firsts_nodup (l : List α) : (firsts l).Nodup := by
  induction l with
  | nil => simp [firsts]
  | cons a l ih =>
    rw [firsts, List.nodup_cons]
    exact ⟨by simp, ih.filter _⟩

theorem firsts_snoc (l : List α) (x : α) :
    firsts (l ++ [x]) = if x ∈ l then firsts l else firsts l ++ [x] := by
  induction l with
  | nil => rfl
  | cons a l ih =>
    rw [List.cons_append, firsts, ih, firsts]
    by_cases ha : x = a
    · subst ha
      by_cases hl : x ∈ l
      · rw [if_pos hl, if_pos List.mem_cons_self]
      · rw [if_neg hl, if_pos List.mem_cons_self, List.filter_append]
        simp
    · by_cases hl : x ∈ l
      · rw [if_pos hl, if_pos (List.mem_cons_of_mem _ hl)]
      · rw [if_neg hl, if_neg (by simp [ha, hl]), List.filter_append]
        simp [ha]
end

theorem snoc_ind {α : Type} {P : List α → Prop} (h0 : P []) (h1 : ∀ l a, P l → P (l ++ [a]))
    (l : List α) : P l := by
  rw [← List.reverse_reverse l]
  induction l.reverse with
  | nil => exact h0
  | cons a l ih => rw [List.reverse_cons]; exact h1 _ _ ih

/-- The entry of a call. -/
def Call.entry (c : Call) : Entry := ⟨c.coro, readOrder c.order, c.priority⟩

/-- The groups of a sequence of calls, in order of first use. -/
def groupsOf (cs : List Call) : List Name := firsts (cs.map Call.groupName)

/-- The accepted calls for a group, in order. -/
def members (cs : List Call) (g : Name) : List Call :=
  cs.filter fun c => c.ok && decide (c.groupName = g)

/-- What `__coros` holds after these calls. -/
def table (cs : List Call) : Dict Name (List Entry) :=
  (groupsOf cs).map fun g => (g, (members cs g).map Call.entry)

theorem members_snoc (cs : List Call) (c : Call) (g : Name) :
    members (cs ++ [c]) g = members cs g ++ if c.ok ∧ c.groupName = g then [c] else [] := by
  unfold members
  rw [List.filter_append]
  congr 1
  by_cases h : c.ok = true ∧ c.groupName = g
  · rw [if_pos h, List.filter_cons_of_pos (by simpa using h)]
    rfl
  · rw [if_neg h, List.filter_cons_of_neg (by simpa using h)]
    rfl

theorem modify_map {ν : Type} (l : List Name) (hl : l.Nodup) (f : Name → ν) (k : Name) (u : ν → ν) :
    Dict.modify (l.map fun g => (g, f g)) k u = l.map fun g => (g, if g = k then u (f g) else f g) := by
  induction l with
  | nil => rfl
  | cons a l ih =>
    rw [List.nodup_cons] at hl
    rw [List.map_cons, List.map_cons, Dict.modify]
    by_cases h : a = k
    · subst h
      rw [if_pos rfl, if_pos rfl]
      congr 1
      refine List.map_congr_left fun g hg => ?_
      have : g ≠ a := by rintro rfl; exact hl.1 hg
      rw [if_neg this]
    · rw [if_neg h, if_neg h, ih hl.2]

theorem coros_table (cs : List Call) : cs.foldl (fun gs c => (call gs c).1) [] = table cs := by
  induction cs using snoc_ind with
  | h0 => rfl
  | h1 cs c ih =>
    rw [List.foldl_append, ih, List.foldl_cons, List.foldl_nil]
    have hk : Dict.keys (table cs) = groupsOf cs := by
      unfold table Dict.keys
      rw [List.map_map]
      exact List.map_id _
    have hg : groupsOf (cs ++ [c]) = if c.groupName ∈ groupsOf cs then groupsOf cs
        else groupsOf cs ++ [c.groupName] := by
      unfold groupsOf
      rw [List.map_append, List.map_singleton, firsts_snoc]
      by_cases h : c.groupName ∈ cs.map Call.groupName
      · rw [if_pos h, if_pos (firsts_mem.2 h)]
      · rw [if_neg h, if_neg (by rw [firsts_mem]; exact h)]
    have hnew : ∀ g, g ∉ groupsOf cs → members cs g = [] := by
      intro g h
      unfold members
      rw [List.filter_eq_nil_iff]
      intro x hx hc
      apply h
      unfold groupsOf
      rw [firsts_mem, List.mem_map]
      exact ⟨x, hx, by simpa using (Bool.and_eq_true_iff.1 hc).2⟩
    -- the groups after the group of the call was created
    have h1 : (if (table cs).has c.groupName then table cs else (table cs).set c.groupName []) =
        (groupsOf (cs ++ [c])).map fun g => (g, (members cs g).map Call.entry) := by
      rw [hg]
      by_cases hm : c.groupName ∈ groupsOf cs
      · rw [if_pos hm, if_pos (by rw [Dict.has_iff, hk]; exact hm)]
        rfl
      · rw [if_neg hm, if_neg (by rw [Dict.has_iff, hk]; exact hm), Dict.set_of_not_mem (by rw [hk]; exact hm),
          List.map_append, List.map_singleton, hnew _ hm]
        rfl
    unfold call
    simp only [h1]
    cases hc : c.ok with
    | true =>
      simp only [if_true]
      rw [modify_map (groupsOf (cs ++ [c])) (firsts_nodup _)]
      unfold table
      refine List.map_congr_left fun g _ => ?_
      rw [members_snoc]
      by_cases h : g = c.groupName
      · subst h
        simp [hc, Call.entry]
      · have h' : ¬ c.groupName = g := fun h'' => h h''.symm
        simp [h, h']
    | false =>
      rw [if_neg (by simp)]
      unfold table
      refine List.map_congr_left fun g _ => ?_
      rw [members_snoc]
      simp [hc]

/-! ### Runs -/

variable {V : Type}

def Ev.id : Ev V → Nat
  | .start c => c
  | .finish c _ => c
  | .raise c => c

/-- The coroutines of the list start and return one after the other, with these values. -/
def seqTrace : List Nat → List V → List (Ev V)
  | c :: cs, v :: vs => .start c :: .finish c v :: seqTrace cs vs
  | _, _ => []

theorem seqTrace_append (a : List Nat) (va : List V) (h : a.length = va.length) (b : List Nat)
    (vb : List V) : seqTrace (a ++ b) (va ++ vb) = seqTrace a va ++ seqTrace b vb := by
  induction a generalizing va with
  | nil => cases va with
    | nil => rfl
    | cons => simp at h
  | cons x a ih => cases va with
    | nil => simp at h
    | cons y va =>
      simp only [List.cons_append, seqTrace]
      rw [ih va (by simpa using h)]

theorem finish_mem_seqTrace {a : List Nat} {va : List V} {c : Nat} {v : V} :
    Ev.finish c v ∈ seqTrace a va ↔ ∃ i : Nat, a[i]? = some c ∧ va[i]? = some v := by
  induction a generalizing va with
  | nil => simp [seqTrace]
  | cons x a ih =>
    cases va with
    | nil => simp [seqTrace]
    | cons y va =>
      rw [seqTrace]
      simp only [List.mem_cons, reduceCtorEq, false_or, Ev.finish.injEq, ih]
      constructor
      · rintro (⟨rfl, rfl⟩ | ⟨i, h1, h2⟩)
        · exact ⟨0, rfl, rfl⟩
        · exact ⟨i + 1, h1, h2⟩
      · rintro ⟨i, h1, h2⟩
        cases i with
        | zero =>
          left
          simp only [List.getElem?_cons_zero, Option.some.injEq] at h1 h2
          exact ⟨h1.symm, h2.symm⟩
        | succ i => exact .inr ⟨i, h1, h2⟩

theorem start_mem_seqTrace {a : List Nat} {va : List V} {c : Nat} (h : Ev.start c ∈ seqTrace a va) :
    ∃ i : Nat, a[i]? = some c ∧ i < va.length := by
  induction a generalizing va with
  | nil => simp [seqTrace] at h
  | cons x a ih =>
    cases va with
    | nil => simp [seqTrace] at h
    | cons v va =>
      simp only [seqTrace, List.mem_cons, Ev.start.injEq, reduceCtorEq, false_or] at h
      rcases h with rfl | h
      · exact ⟨0, rfl, by simp⟩
      · obtain ⟨i, h1, h2⟩ := ih h
        exact ⟨i + 1, h1, by simpa using h2⟩

def ids (es : List Entry) : List Nat := es.map fun e => e.coro.id

/-- The part of the log about some coroutines. -/
def proj (cs : List Nat) (log : List (Ev V)) : List (Ev V) := log.filter fun e => decide (e.id ∈ cs)

/-- A group task that has this list to do. -/
def TaskOk (cs : List Nat) (t : Task V) (log : List (Ev V)) : Prop :=
  ∃ pre, cs = pre ++ (t.cur.toList.map Coro.id ++ (t.err.toList ++ ids t.todo)) ∧
    pre.length = t.results.length ∧
    proj cs log = seqTrace pre t.results ++ (t.cur.toList.map (fun c => Ev.start c.id) ++
      t.err.toList.flatMap fun c => [Ev.start c, Ev.raise c]) ∧
    (t.done = true → t.cur = none ∧ t.err = none ∧ t.todo = []) ∧ (t.err ≠ none → t.cur = none)

/-- No coroutine is in two groups. -/
def Disj (gs : Dict Name (List Entry)) : Prop :=
  ∀ (i j : Nat) gi gj, gs[i]? = some gi → gs[j]? = some gj → ∀ c ∈ ids gi.2, c ∈ ids gj.2 → i = j

structure TasksOk (gs : Dict Name (List Entry)) (s : St V) : Prop where
  coros : s.coros = gs
  length : s.tasks.length = gs.length
  tasks : ∀ (i : Nat) g t, gs[i]? = some g → s.tasks[i]? = some t → TaskOk (ids g.2) t s.log

theorem proj_append (cs : List Nat) (a b : List (Ev V)) : proj cs (a ++ b) = proj cs a ++ proj cs b :=
  List.filter_append ..

theorem set_tasks {gs : Dict Name (List Entry)} (hd : Disj gs) {s : St V} (h : TasksOk gs s) {i : Nat}
    {t t' : Task V} {g : Name × List Entry} (ht : s.tasks[i]? = some t) (hg : gs[i]? = some g)
    {log' : List (Ev V)} (hl : ∀ e ∈ log', e.id ∈ ids g.2)
    (hok : TaskOk (ids g.2) t' (s.log ++ log')) :
    ∀ (j : Nat) gj tj, gs[j]? = some gj → (s.tasks.set i t')[j]? = some tj →
      TaskOk (ids gj.2) tj (s.log ++ log') := by
  intro j gj tj hgj htj
  have hlt : i < s.tasks.length := by
    rw [List.getElem?_eq_some_iff] at ht
    exact ht.1
  by_cases hij : i = j
  · subst hij
    rw [List.getElem?_set_self hlt] at htj
    rw [hg] at hgj
    cases htj
    cases hgj
    exact hok
  · rw [List.getElem?_set_ne hij] at htj
    obtain ⟨pre, h1, h2, h3, h4, h5⟩ := h.tasks j gj tj hgj htj
    refine ⟨pre, h1, h2, ?_, h4, h5⟩
    rw [proj_append, h3]
    have : proj (ids gj.2) log' = [] := by
      unfold proj
      rw [List.filter_eq_nil_iff]
      intro e he hc
      exact hij (hd i j g gj hg hgj _ (hl e he) (by simpa using hc))
    rw [this, List.append_nil]

theorem group_of {gs : Dict Name (List Entry)} {s : St V} (h : TasksOk gs s) {i : Nat} {t : Task V}
    (ht : s.tasks[i]? = some t) : ∃ g, gs[i]? = some g := by
  rw [List.getElem?_eq_some_iff] at ht
  obtain ⟨h1, _⟩ := ht
  exact ⟨gs[i]'(by rw [← h.length]; exact h1), List.getElem?_eq_getElem _⟩

/-- The steps after the block keep the group tasks in order. -/
theorem tasksOk_step (exit : Name) {gs : Dict Name (List Entry)} (hd : Disj gs) {s : St V}
    (h : TasksOk gs s) (hp : s.phase ≠ .inside) (a : Act V) : TasksOk gs (step exit s a) := by
  cases a with
  | call c => simp only [step, if_neg hp]; exact h
  | exit => simp only [step, if_neg hp]; exact h
  | start i =>
    simp only [step]
    split
    · rename_i e es rs ht
      obtain ⟨g, hg⟩ := group_of h ht
      obtain ⟨pre, h1, h2, h3, h4, h5⟩ := h.tasks i g _ hg ht
      refine ⟨h.coros, by simpa using h.length, set_tasks hd h ht hg ?_ ⟨pre, ?_, h2, ?_, by simp, by simp⟩⟩
      · intro e' he'
        rw [List.mem_singleton] at he'
        subst he'
        rw [h1]
        simp [ids, Ev.id]
      · rw [h1]
        simp [ids]
      · rw [proj_append, h3]
        have : e.coro.id ∈ ids g.2 := by rw [h1]; simp [ids]
        simp [proj, Ev.id, this]
    · exact h
  | finish i v =>
    simp only [step]
    split
    · rename_i es c rs ht
      obtain ⟨g, hg⟩ := group_of h ht
      obtain ⟨pre, h1, h2, h3, h4, h5⟩ := h.tasks i g _ hg ht
      have hc : c.id ∈ ids g.2 := by rw [h1]; simp
      refine ⟨h.coros, by simpa using h.length, set_tasks hd h ht hg ?_
        ⟨pre ++ [c.id], ?_, by simpa using h2, ?_, by simp, by simp⟩⟩
      · intro e' he'
        rw [List.mem_singleton] at he'
        subst he'
        exact hc
      · rw [h1]
        simp
      · rw [proj_append, h3, seqTrace_append _ _ h2]
        simp [proj, Ev.id, hc, seqTrace]
    · exact h
  | raise i =>
    simp only [step]
    split
    · rename_i es c rs ht
      obtain ⟨g, hg⟩ := group_of h ht
      obtain ⟨pre, h1, h2, h3, h4, h5⟩ := h.tasks i g _ hg ht
      have hc : c.id ∈ ids g.2 := by rw [h1]; simp
      refine ⟨h.coros, by simpa using h.length, set_tasks hd h ht hg ?_
        ⟨pre, ?_, h2, ?_, by simp, by simp⟩⟩
      · intro e' he'
        rw [List.mem_singleton] at he'
        subst he'
        exact hc
      · rw [h1]
        simp
      · rw [proj_append, h3]
        simp [proj, Ev.id, hc]
    · exact h
  | complete i =>
    simp only [step]
    split
    · rename_i rs ht
      obtain ⟨g, hg⟩ := group_of h ht
      obtain ⟨pre, h1, h2, h3, h4, h5⟩ := h.tasks i g _ hg ht
      have := set_tasks hd h ht hg (log' := []) (t' := ⟨[], none, rs, true, none⟩) (by simp)
        ⟨pre, h1, h2, by rw [List.append_nil]; exact h3, by simp, by simp⟩
      rw [List.append_nil] at this
      exact ⟨h.coros, by simpa using h.length, this⟩
    · exact h
  | waitAll =>
    simp only [step]
    split
    · split
      · exact h
      · exact ⟨h.coros, h.length, h.tasks⟩
    · exact h
  | proceed =>
    simp only [step, awaited]
    repeat' split
    all_goals first | exact h | exact ⟨h.coros, h.length, h.tasks⟩

theorem await_cases (ts : List (Task V)) :
    (await ts = some .left ∧ ∀ t ∈ ts, t.done = true) ∨
    (∃ l t r c, ts = l ++ t :: r ∧ (∀ x ∈ l, x.done = true) ∧ t.done = false ∧ t.err = some c ∧
      await ts = some (.raised c)) ∨
    (∃ l t r, ts = l ++ t :: r ∧ (∀ x ∈ l, x.done = true) ∧ t.done = false ∧ t.err = none ∧
      await ts = none) := by
  induction ts with
  | nil => exact .inl ⟨rfl, by simp⟩
  | cons t ts ih =>
    cases hd : t.done with
    | true =>
      have h1 : await (t :: ts) = await ts := by rw [await, if_pos hd]
      rw [h1]
      rcases ih with ⟨h, h'⟩ | ⟨l, x, r, c, rfl, h2, h3, h4, h5⟩ | ⟨l, x, r, rfl, h2, h3, h4, h5⟩
      · exact .inl ⟨h, by simpa [hd] using h'⟩
      · exact .inr (.inl ⟨t :: l, x, r, c, rfl, by simpa [hd] using h2, h3, h4, h5⟩)
      · exact .inr (.inr ⟨t :: l, x, r, rfl, by simpa [hd] using h2, h3, h4, h5⟩)
    | false =>
      cases he : t.err with
      | some c => exact .inr (.inl ⟨[], t, ts, c, rfl, by simp, hd, he, by simp [await, hd, he]⟩)
      | none => exact .inr (.inr ⟨[], t, ts, rfl, by simp, hd, he, by simp [await, hd, he]⟩)

theorem await_left {ts : List (Task V)} : await ts = some .left ↔ ∀ t ∈ ts, t.done = true := by
  rcases await_cases ts with ⟨h, h'⟩ | ⟨l, x, r, c, rfl, h2, h3, h4, h5⟩ | ⟨l, x, r, rfl, h2, h3, h4, h5⟩
  · exact ⟨fun _ => h', fun _ => h⟩
  · rw [h5]
    constructor
    · intro h; cases h
    · intro h
      have := h x (by simp)
      rw [h3] at this
      cases this
  · rw [h5]
    constructor
    · intro h; cases h
    · intro h
      have := h x (by simp)
      rw [h3] at this
      cases this

/-- What `awaited` does. -/
theorem awaited_cases (s : St V) :
    (allDone s = true ∧ awaited s =
      { s with results := setResults s.coros (s.tasks.map (·.results)), phase := .left }) ∨
    (∃ l t r c, s.tasks = l ++ t :: r ∧ (∀ x ∈ l, x.done = true) ∧ t.done = false ∧ t.err = some c ∧
      awaited s = { s with phase := .raised c }) ∨
    (∃ t ∈ s.tasks, t.done = false ∧ t.err = none ∧ awaited s = s) := by
  rcases await_cases s.tasks with ⟨h, h'⟩ | ⟨l, x, r, c, h1, h2, h3, h4, h5⟩ |
    ⟨l, x, r, h1, h2, h3, h4, h5⟩
  · exact .inl ⟨by unfold allDone; rw [List.all_eq_true]; exact h', by simp only [awaited, h]⟩
  · exact .inr (.inl ⟨l, x, r, c, h1, h2, h3, h4, by simp only [awaited, h5]⟩)
  · exact .inr (.inr ⟨x, by rw [h1]; simp, h3, h4, by simp only [awaited, h5]⟩)

theorem phase_step (exit : Name) {s : St V} (hp : s.phase ≠ .inside) (a : Act V) :
    (step exit s a).phase ≠ .inside := by
  have ha : (awaited s).phase ≠ .inside := by
    rcases awaited_cases s with ⟨_, h⟩ | ⟨_, _, _, _, _, _, _, _, h⟩ | ⟨_, _, _, _, h⟩ <;> rw [h]
    · simp
    · simp
    · exact hp
  cases a <;> simp only [step]
  all_goals repeat' split
  all_goals first | exact hp | exact ha | simp

/-- What `proceed` does. -/
theorem proceed_cases (exit : Name) (s : St V) :
    step exit s .proceed = s ∨
    (s.phase = .leaving ∧ exit ≠ "all".toList ∧ s.event = true ∧
      step exit s .proceed = { s with phase := .left }) ∨
    ((s.phase = .leaving ∧ exit = "all".toList ∨ s.phase = .waiting) ∧ allDone s = true ∧
      step exit s .proceed =
        { s with results := setResults s.coros (s.tasks.map (·.results)), phase := .left }) ∨
    ((s.phase = .leaving ∧ exit = "all".toList ∨ s.phase = .waiting) ∧
      ∃ l t r c, s.tasks = l ++ t :: r ∧ (∀ x ∈ l, x.done = true) ∧ t.done = false ∧
        t.err = some c ∧ step exit s .proceed = { s with phase := .raised c }) := by
  have key : (s.phase = .leaving ∧ exit = "all".toList ∨ s.phase = .waiting) →
      step exit s .proceed = awaited s := by
    rintro (⟨h1, h2⟩ | h1)
    · simp only [step, h1]
      rw [if_pos h2]
    · simp only [step, h1]
  by_cases h : s.phase = .leaving ∧ exit = "all".toList ∨ s.phase = .waiting
  · have h' := key h
    rcases awaited_cases s with ⟨h1, h2⟩ | ⟨l, t, r, c, h1, h2, h3, h4, h5⟩ | ⟨t, h1, h2, h3, h4⟩
    · exact Or.inr (Or.inr (Or.inl ⟨h, h1, h'.trans h2⟩))
    · exact Or.inr (Or.inr (Or.inr ⟨h, l, t, r, c, h1, h2, h3, h4, h'.trans h5⟩))
    · exact Or.inl (h'.trans h4)
  · rw [not_or, not_and] at h
    by_cases hp : s.phase = .leaving
    · have he := h.1 hp
      by_cases hev : s.event = true
      · refine .inr (.inl ⟨hp, he, hev, ?_⟩)
        simp only [step, hp]
        rw [if_neg he, if_pos hev]
      · left
        simp only [step, hp]
        rw [if_neg he, if_neg hev]
    · left
      have h2 := h.2
      simp only [step]

end Toffee.Executor
