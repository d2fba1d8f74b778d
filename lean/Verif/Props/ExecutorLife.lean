import Verif.Model.ExecutorLife
import Verif.Props.ExecutorFail

/-! Using an `Executor` object more than once, and after its block (`toffee/executor.py`): C101. -/

namespace Toffee.ExecutorLife

open Toffee.Executor (Name Coro Call Entry Res call ValidExit Distinct snoc_ind)

variable {V : Type}

/-! ### Steps -/

/-- What a step does to a group task. -/
inductive TaskMove (b : List Nat) : Task V → Task V → List (Ev V) → Prop
  | begin (e es rs) : e.coro.id ∉ b →
      TaskMove b ⟨e :: es, none, rs, false, none⟩ ⟨es, some e.coro, rs, false, none⟩ [.start e.coro.id]
  | again (e es rs) : e.coro.id ∈ b →
      TaskMove b ⟨e :: es, none, rs, false, none⟩
        ⟨e :: es, none, rs, false, some (.reuse e.coro.id)⟩ []
  | finish (es c rs v) : TaskMove b ⟨es, some c, rs, false, none⟩ ⟨es, none, rs ++ [v], false, none⟩
      [.finish c.id v]
  | raise (es c rs) : TaskMove b ⟨es, some c, rs, false, none⟩ ⟨es, none, rs, false, some (.coro c.id)⟩
      [.raise c.id]
  | complete (rs) : TaskMove b ⟨[], none, rs, false, none⟩ ⟨[], none, rs, true, none⟩ []

/-- What a step does to the state. -/
inductive Move (exit : Name) (s : St V) : St V → Prop
  | stay : Move exit s s
  | call (c) : s.phase = .idle → Move exit s { s with coros := (call s.coros c).1 }
  | exit (ev) : s.phase = .idle → exit ≠ "none".toList → Move exit s
      { s with tasks := s.tasks ++ newTasks s.coros, base := s.tasks.length, event := ev,
               phase := .leaving }
  | exitNone : s.phase = .idle → exit = "none".toList → Move exit s
      { s with tasks := s.tasks ++ newTasks s.coros, base := s.tasks.length, log := s.log ++ [.left] }
  | phase (p) : p ≠ .leaving → Move exit s { s with phase := p }
  | task (i t t' l ev) : s.tasks[i]? = some t → TaskMove (starts s.log) t t' l → Move exit s
      { s with tasks := s.tasks.set i t', log := s.log ++ l, event := ev }
  | left (r) : s.phase = .leaving →
      (exit = "all".toList → await (s.tasks.drop s.base) = some none) → Move exit s
      { s with results := r, phase := .idle, log := s.log ++ [.left] }
  | waited (r) : (s.phase = .waiting → (setResults s.coros (s.tasks.map (·.results))).isSome) →
      (s.phase = .idle ∧ (exit = "all".toList ∨ s.tasks = []) ∨ s.phase = .waiting) → Move exit s
      { s with results := r, phase := .idle, log := s.log ++ [.waited] }

theorem step_move (exit : Name) (s : St V) (a : Act V) : Move exit s (step exit s a) := by
  cases a with
  | call c =>
    simp only [step]
    split
    · exact .call c ‹_›
    · exact .stay
  | exit =>
    simp only [step]
    split
    · rename_i hp
      split
      · rename_i h
        exact .exit s.event hp (by rw [h]; decide)
      · split
        · exact .exitNone hp ‹_›
        · split
          · exact .exit false hp ‹_›
          · exact .phase _ (by simp)
    · exact .stay
  | start i =>
    simp only [step]
    split
    · rename_i h
      split
      · have := Move.task (exit := exit) i _ _ _ s.event h (.again _ _ _ ‹_›)
        rw [List.append_nil] at this
        exact this
      · exact Move.task (exit := exit) i _ _ _ s.event h (.begin _ _ _ ‹_›)
    · exact .stay
  | finish i v =>
    simp only [step]
    split
    · rename_i h
      exact Move.task (exit := exit) i _ _ _ s.event h (.finish _ _ _ v)
    · exact .stay
  | raise i =>
    simp only [step]
    split
    · rename_i h
      exact Move.task (exit := exit) i _ _ _ s.event h (.raise _ _ _)
    · exact .stay
  | complete i =>
    simp only [step]
    split
    · rename_i h
      have := Move.task (exit := exit) i _ _ _ (if exit = "any".toList then true else s.event) h
        (.complete _)
      rw [List.append_nil] at this
      exact this
    · exact .stay
  | waitAll =>
    simp only [step]
    split
    · rename_i hp
      split
      · have := Move.waited (exit := exit) s.results (s := s) (by rw [hp]; intro h; cases h)
          (.inl ⟨hp, ‹_›⟩)
        rw [← hp] at this
        exact this
      · exact .phase _ (by simp)
    · exact .stay
  | proceed =>
    simp only [step]
    split
    · rename_i hp
      split
      · rename_i he
        unfold awaited
        split
        · rename_i hw
          split
          · exact .left _ hp fun _ => hw
          · exact .phase _ (by simp)
        · exact .phase _ (by simp)
        · exact .stay
      · rename_i he
        split
        · exact .left s.results hp fun h => absurd h he
        · exact .stay
    · rename_i hp
      unfold awaited
      split
      · split
        · rename_i h
          exact .waited _ (fun _ => by rw [h]; rfl) (.inr hp)
        · exact .phase _ (by simp)
      · exact .phase _ (by simp)
      · exact .stay
    · exact .stay
  | handle =>
    simp only [step]
    split
    · exact .phase _ (by simp)
    · exact .stay

theorem run_append (exit : Name) (s : St V) (a b : List (Act V)) :
    run exit s (a ++ b) = run exit (run exit s a) b := List.foldl_append ..

theorem life_snoc (exit : Name) (as : List (Act V)) (a : Act V) :
    life exit (as ++ [a]) = step exit (life exit as) a := run_append ..

theorem starts_append (a b : List (Ev V)) : starts (a ++ b) = starts a ++ starts b :=
  List.filterMap_append ..

theorem mem_starts {log : List (Ev V)} {c : Nat} : c ∈ starts log ↔ Ev.start c ∈ log := by
  unfold starts
  rw [List.mem_filterMap]
  constructor
  · rintro ⟨e, he, h⟩
    cases e <;> simp at h
    exact h ▸ he
  · exact fun h => ⟨_, h, rfl⟩

/-- Groups only grow. -/
theorem call_grows (gs : Dict Name (List Entry)) (c : Call) (g : Name × List Entry) (h : g ∈ gs) :
    ∃ g' ∈ (call gs c).1, g.2 <+: g'.2 := by
  have hset : ∀ (gs : Dict Name (List Entry)) (k : Name), gs.has k = false →
      g ∈ gs → g ∈ gs.set k [] := by
    intro gs k hk hg
    rw [Dict.set_of_not_mem fun hm => by rw [Dict.has_iff.2 hm] at hk; cases hk]
    exact List.mem_append_left _ hg
  have hmod : ∀ (gs : Dict Name (List Entry)) (k : Name) (e : Entry), g ∈ gs →
      ∃ g' ∈ gs.modify k (· ++ [e]), g.2 <+: g'.2 := by
    intro gs k e hg
    induction gs with
    | nil => cases hg
    | cons x gs ih =>
      rcases List.mem_cons.1 hg with rfl | hg
      · simp only [Dict.modify]
        split
        · exact ⟨_, List.mem_cons_self, List.prefix_append ..⟩
        · exact ⟨_, List.mem_cons_self, List.prefix_refl _⟩
      · obtain ⟨g', h1, h2⟩ := ih hg
        simp only [Dict.modify]
        split
        · exact ⟨g, List.mem_cons_of_mem _ hg, List.prefix_refl _⟩
        · exact ⟨g', List.mem_cons_of_mem _ h1, h2⟩
  unfold call
  have h0 : g ∈ (if gs.has c.groupName then gs else gs.set c.groupName []) := by
    split
    · exact h
    · exact hset gs _ (eq_false_of_ne_true ‹_›) h
  simp only
  split
  · exact hmod _ _ _ h0
  · exact ⟨g, h0, List.prefix_refl _⟩

/-- The first coroutine of the group has begun. -/
def HeadIn (es : List Entry) (log : List (Ev V)) : Prop :=
  ∃ e, es.head? = some e ∧ e.coro.id ∈ starts log

theorem HeadIn.mono {es es' : List Entry} {log : List (Ev V)} (h : HeadIn es log) (hp : es <+: es')
    (l : List (Ev V)) : HeadIn es' (log ++ l) := by
  obtain ⟨e, h1, h2⟩ := h
  obtain ⟨r, rfl⟩ := hp
  refine ⟨e, ?_, by rw [starts_append]; exact List.mem_append_left _ h2⟩
  cases es with
  | nil => cases h1
  | cons x es => exact h1

/-- A task is that of a group, which has not begun, or the first coroutine of the group has. -/
def OfGroup (s : St V) (t : Task V) : Prop :=
  ∃ g ∈ s.coros, (t.todo <+: g.2 ∧ t.cur = none) ∨ HeadIn g.2 s.log

structure Inv (s : St V) : Prop where
  tasks : ∀ t ∈ s.tasks, OfGroup s t
  begun : starts s.log ≠ [] → ∃ g ∈ s.coros, HeadIn g.2 s.log

theorem OfGroup.mono {s s' : St V} {t : Task V} (h : OfGroup s t)
    (hc : ∀ g ∈ s.coros, ∃ g' ∈ s'.coros, g.2 <+: g'.2) {l : List (Ev V)} (hl : s'.log = s.log ++ l) :
    OfGroup s' t := by
  obtain ⟨g, hg, h⟩ := h
  obtain ⟨g', hg', hp⟩ := hc g hg
  refine ⟨g', hg', ?_⟩
  rcases h with ⟨h1, h2⟩ | h
  · exact .inl ⟨h1.trans hp, h2⟩
  · rw [hl]
    exact .inr (h.mono hp l)

theorem same_grows (gs : Dict Name (List Entry)) : ∀ g ∈ gs, ∃ g' ∈ gs, g.2 <+: g'.2 :=
  fun g hg => ⟨g, hg, List.prefix_refl _⟩

/-- Steps that neither begin a coroutine nor touch a task. -/
theorem Inv.quiet {s s' : St V} (h : Inv s)
    (hc : ∀ g ∈ s.coros, ∃ g' ∈ s'.coros, g.2 <+: g'.2)
    (ht : ∀ t ∈ s'.tasks, t ∈ s.tasks ∨ OfGroup s' t) {l : List (Ev V)} (hl : s'.log = s.log ++ l)
    (hs : starts l = []) : Inv s' := by
  refine ⟨fun t hm => ?_, fun hb => ?_⟩
  · rcases ht t hm with h1 | h1
    · exact (h.tasks t h1).mono hc hl
    · exact h1
  · rw [hl, starts_append, hs, List.append_nil] at hb
    obtain ⟨g, hg, hh⟩ := h.begun hb
    obtain ⟨g', hg', hp⟩ := hc g hg
    exact ⟨g', hg', by rw [hl]; exact hh.mono hp l⟩

theorem newTasks_ofGroup (s' : St V) (t : Task V) (h : t ∈ newTasks (V := V) s'.coros) : OfGroup s' t := by
  unfold newTasks at h
  rw [List.mem_map] at h
  obtain ⟨g, hg, rfl⟩ := h
  exact ⟨g, hg, .inl ⟨List.prefix_refl _, rfl⟩⟩

theorem inv_step {exit : Name} {s s' : St V} (h : Inv s) (hm : Move exit s s') : Inv s' := by
  cases hm with
  | stay => exact h
  | call c hp => exact h.quiet (call_grows _ _) (fun t ht => .inl ht) (List.append_nil _).symm rfl
  | exit ev hp _ =>
    refine h.quiet (same_grows _) (fun t ht => ?_) (List.append_nil _).symm rfl
    rcases List.mem_append.1 ht with ht | ht
    · exact .inl ht
    · exact .inr (newTasks_ofGroup _ t ht)
  | exitNone hp _ =>
    refine h.quiet (same_grows _) (fun t ht => ?_) rfl rfl
    rcases List.mem_append.1 ht with ht | ht
    · exact .inl ht
    · exact .inr (newTasks_ofGroup _ t ht)
  | phase p hp => exact h.quiet (same_grows _) (fun t ht => .inl ht) (List.append_nil _).symm rfl
  | left r _ _ => exact h.quiet (same_grows _) (fun t ht => .inl ht) rfl rfl
  | waited r _ _ => exact h.quiet (same_grows _) (fun t ht => .inl ht) rfl rfl
  | task i t t' l ev ht hmv =>
    have hi := List.mem_of_getElem? ht
    obtain ⟨g, hg, hh⟩ := h.tasks t hi
    have hset : ∀ x ∈ s.tasks.set i t', x ∈ s.tasks ∨ x = t' := fun x hx => List.mem_or_eq_of_mem_set hx
    have hhead : ∀ l, HeadIn g.2 s.log → HeadIn g.2 (s.log ++ l) :=
      fun l h => h.mono (List.prefix_refl _) l
    cases hmv with
    | begin e es rs hb =>
      have hb : HeadIn g.2 (s.log ++ [.start e.coro.id]) := by
        rcases hh with ⟨⟨r, hr⟩, _⟩ | hh
        · rw [← hr]
          exact ⟨e, rfl, by rw [starts_append]; simp [starts]⟩
        · exact hhead _ hh
      refine ⟨fun x hx => ?_, fun _ => ⟨g, hg, hb⟩⟩
      rcases hset x hx with hx | rfl
      · exact (h.tasks x hx).mono (same_grows _) rfl
      · exact ⟨g, hg, .inr hb⟩
    | again e es rs hb =>
      refine h.quiet (same_grows _) (fun x hx => ?_) (by rfl) rfl
      rcases hset x hx with hx | rfl
      · exact .inl hx
      · refine .inr ⟨g, hg, ?_⟩
        rcases hh with hh | hh
        · exact .inl hh
        · exact .inr (hhead _ hh)
    | finish es c rs v =>
      refine h.quiet (same_grows _) (fun x hx => ?_) (by rfl) rfl
      rcases hset x hx with hx | rfl
      · exact .inl hx
      · refine .inr ⟨g, hg, .inr ?_⟩
        rcases hh with ⟨_, hh⟩ | hh
        · cases hh
        · exact hhead _ hh
    | raise es c rs =>
      refine h.quiet (same_grows _) (fun x hx => ?_) (by rfl) rfl
      rcases hset x hx with hx | rfl
      · exact .inl hx
      · refine .inr ⟨g, hg, .inr ?_⟩
        rcases hh with ⟨_, hh⟩ | hh
        · cases hh
        · exact hhead _ hh
    | complete rs =>
      refine h.quiet (same_grows _) (fun x hx => ?_) (by rfl) rfl
      rcases hset x hx with hx | rfl
      · exact .inl hx
      · refine .inr ⟨g, hg, ?_⟩
        rcases hh with hh | hh
        · exact .inl hh
        · exact .inr (hhead _ hh)

theorem inv_life (exit : Name) (as : List (Act V)) : Inv (life exit as) := by
  induction as using snoc_ind with
  | h0 => exact ⟨by simp [life, run, init], by simp [life, run, init, starts]⟩
  | h1 as a ih => rw [life_snoc]; exact inv_step ih (step_move ..)

/-! ### A second block -/

/-- A block was left normally after a coroutine had begun. -/
def LeftAfter (log : List (Ev V)) : Prop := ∃ c l1 l2, log = l1 ++ .left :: l2 ∧ .start c ∈ l1

/-- ... and later a block was left normally again. -/
def LeftTwice (log : List (Ev V)) : Prop :=
  ∃ c l1 l2 l3, log = l1 ++ .left :: (l2 ++ .left :: l3) ∧ .start c ∈ l1

theorem split_snoc {α : Type} {l l1 l2 : List α} {x y : α} (h : l ++ [x] = l1 ++ y :: l2) :
    (l2 = [] ∧ x = y ∧ l = l1) ∨ ∃ l2', l2 = l2' ++ [x] ∧ l = l1 ++ y :: l2' := by
  rcases List.eq_nil_or_concat l2 with rfl | ⟨l2', z, rfl⟩
  · have := List.append_inj' h rfl
    cases this.2
    exact .inl ⟨rfl, rfl, this.1⟩
  · rw [List.concat_eq_append] at h ⊢
    have h' : l ++ [x] = (l1 ++ y :: l2') ++ [z] := by simpa using h
    have := List.append_inj' h' rfl
    cases this.2
    exact .inr ⟨l2', rfl, this.1⟩

/-- A task that will never return. -/
def Stuck (b : List Nat) (t : Task V) : Prop :=
  t.done = false ∧ (t.err ≠ none ∨ t.cur = none ∧ ∃ e es, t.todo = e :: es ∧ e.coro.id ∈ b)

theorem await_stuck {ts : List (Task V)} {t : Task V} (h : t ∈ ts) (hd : t.done = false) :
    await ts ≠ some none := by
  induction ts with
  | nil => cases h
  | cons x ts ih =>
    unfold await
    split
    · rename_i hx
      rcases List.mem_cons.1 h with rfl | h
      · rw [hd] at hx; cases hx
      · exact ih h
    · split <;> simp

theorem stuck_move {b : List Nat} {t t' : Task V} {l : List (Ev V)} (h : TaskMove b t t' l)
    (hs : Stuck b t) : Stuck b t' := by
  obtain ⟨h1, h2⟩ := hs
  cases h with
  | begin e es rs hb =>
    rcases h2 with h2 | ⟨_, e', es', h3, h4⟩
    · exact absurd rfl h2
    · cases h3
      exact absurd h4 hb
  | again e es rs hb => exact ⟨rfl, .inl (by simp)⟩
  | finish es c rs v =>
    rcases h2 with h2 | ⟨h2, _⟩
    · exact absurd rfl h2
    · cases h2
  | raise es c rs => exact ⟨rfl, .inl (by simp)⟩
  | complete rs =>
    rcases h2 with h2 | ⟨_, e', es', h3, h4⟩
    · exact absurd rfl h2
    · cases h3

theorem Stuck.mono {b b' : List Nat} {t : Task V} (h : Stuck b t) (hb : ∀ x ∈ b, x ∈ b') : Stuck b' t := by
  obtain ⟨h1, h2⟩ := h
  refine ⟨h1, ?_⟩
  rcases h2 with h2 | ⟨h2, e, es, h3, h4⟩
  · exact .inl h2
  · exact .inr ⟨h2, e, es, h3, hb _ h4⟩

structure Again (s : St V) : Prop where
  once : ¬ LeftTwice s.log
  stuck : LeftAfter s.log → s.phase = .leaving →
    ∃ i t, s.base ≤ i ∧ s.tasks[i]? = some t ∧ Stuck (starts s.log) t

theorem leftTwice_snoc {log : List (Ev V)} {e : Ev V} (h : LeftTwice (log ++ [e])) :
    LeftTwice log ∨ (e = .left ∧ LeftAfter log) := by
  obtain ⟨c, l1, l2, l3, h1, h2⟩ := h
  have h1' : log ++ [e] = (l1 ++ .left :: l2) ++ .left :: l3 := by simpa using h1
  rcases split_snoc h1' with ⟨_, rfl, rfl⟩ | ⟨l3', _, rfl⟩
  · exact .inr ⟨rfl, c, l1, l2, rfl, h2⟩
  · exact .inl ⟨c, l1, l2, l3', by simp, h2⟩

theorem leftAfter_snoc {log : List (Ev V)} {e : Ev V} (he : e ≠ .left) (h : LeftAfter (log ++ [e])) :
    LeftAfter log := by
  obtain ⟨c, l1, l2, h1, h2⟩ := h
  rcases split_snoc h1 with ⟨_, rfl, rfl⟩ | ⟨l3', _, rfl⟩
  · exact absurd rfl he
  · exact ⟨c, l1, l3', rfl, h2⟩

theorem again_step {s s' : St V} (hi : Inv s) (h : Again s) (hm : Move "all".toList s s') : Again s' := by
  cases hm with
  | stay => exact h
  | call c hp =>
    refine ⟨h.once, fun _ hp' => ?_⟩
    have hp' : s.phase = .leaving := hp'
    rw [hp] at hp'
    cases hp'
  | exit ev hp _ =>
    refine ⟨h.once, fun hl _ => ?_⟩
    have hb : starts s.log ≠ [] := by
      obtain ⟨c, l1, l2, h1, h2⟩ := hl
      have : c ∈ starts s.log := mem_starts.2 (by
        rw [show s.log = _ from h1]
        exact List.mem_append_left _ h2)
      exact List.ne_nil_of_mem this
    obtain ⟨g, hg, e, he, hes⟩ := hi.begun hb
    obtain ⟨j, hj, hjg⟩ := List.getElem_of_mem hg
    refine ⟨s.tasks.length + j, ⟨g.2, none, [], false, none⟩, Nat.le_add_right .., ?_, rfl, .inr ⟨rfl, e, g.2.tail, ?_, hes⟩⟩
    · show (s.tasks ++ newTasks s.coros)[_]? = _
      rw [List.getElem?_append_right (Nat.le_add_right ..), Nat.add_sub_cancel_left]
      unfold newTasks
      rw [List.getElem?_map, List.getElem?_eq_getElem hj, hjg]
      rfl
    · show g.2 = _
      cases hc : g.2 with
      | nil => rw [hc] at he; cases he
      | cons x xs => rw [hc] at he; cases he; rfl
  | exitNone hp hn => exact absurd hn (by decide)
  | phase p hp => exact ⟨h.once, fun _ hp' => absurd hp' hp⟩
  | task i t t' l ev ht hmv =>
    have hl : l = [] ∨ ∃ e, l = [e] ∧ e ≠ .left := by
      cases hmv <;> simp
    have hone : ¬ LeftTwice (s.log ++ l) := by
      rcases hl with rfl | ⟨e, rfl, he⟩
      · rw [List.append_nil]; exact h.once
      · intro h2
        rcases leftTwice_snoc h2 with h2 | ⟨h2, _⟩
        · exact h.once h2
        · exact he h2
    refine ⟨hone, fun ha hp => ?_⟩
    have ha' : LeftAfter s.log := by
      rcases hl with rfl | ⟨e, rfl, he⟩
      · have : LeftAfter (s.log ++ []) := ha
        rwa [List.append_nil] at this
      · exact leftAfter_snoc he ha
    obtain ⟨j, x, h1, h2, h3⟩ := h.stuck ha' hp
    have hmono : ∀ y ∈ starts s.log, y ∈ starts (s.log ++ l) := by
      intro y hy
      rw [starts_append]
      exact List.mem_append_left _ hy
    by_cases hij : i = j
    · subst hij
      rw [ht] at h2
      cases h2
      refine ⟨i, t', h1, ?_, (stuck_move hmv h3).mono hmono⟩
      have hlt : i < s.tasks.length := (List.getElem?_eq_some_iff.1 ht).1
      exact List.getElem?_set_self hlt
    · refine ⟨j, x, h1, ?_, h3.mono hmono⟩
      show (s.tasks.set i t')[j]? = _
      rw [List.getElem?_set_ne hij]
      exact h2
  | left r hp hw =>
    refine ⟨fun h2 => ?_, fun _ hp' => by cases hp'⟩
    rcases leftTwice_snoc h2 with h2 | ⟨_, h2⟩
    · exact h.once h2
    · obtain ⟨i, t, h3, h4, h5⟩ := h.stuck h2 hp
      refine await_stuck (t := t) ?_ h5.1 (hw rfl)
      refine List.mem_of_getElem? (i := i - s.base) ?_
      rw [List.getElem?_drop, Nat.add_sub_cancel' h3]
      exact h4
  | waited r _ hp =>
    refine ⟨fun h2 => ?_, fun _ hp' => by cases hp'⟩
    rcases leftTwice_snoc h2 with h2 | ⟨h2, _⟩
    · exact h.once h2
    · cases h2

/-- **C101 is false** for `Executor()`, in every case: an executor that has executed a coroutine in a
block is never left normally again, because the second block awaits the coroutines of the first one
again. -/
theorem C101_second_block_violated (as : List (Act V)) : ¬ LeftTwice (life "all".toList as).log := by
  have h : Again (life (V := V) "all".toList as) := by
    induction as using snoc_ind with
    | h0 =>
      refine ⟨?_, fun _ h => by cases h⟩
      rintro ⟨c, l1, l2, l3, h, _⟩
      simp [life, run, init] at h
    | h1 as a ih => rw [life_snoc]; exact again_step (inv_life _ _) ih (step_move ..)
  exact h.once

/-- **C101.** In its whole life an executor begins no coroutine twice. -/
theorem C101_once (exit : Name) (as : List (Act V)) (c : Nat) (l1 l2 l3 : List (Ev V)) :
    (life exit as).log ≠ l1 ++ .start c :: (l2 ++ .start c :: l3) := by
  have h : (starts (life exit as).log).Nodup := by
    induction as using snoc_ind with
    | h0 => simp [life, run, init, starts]
    | h1 as a ih =>
      rw [life_snoc]
      have hm := step_move exit (life exit as) a
      generalize life exit as = s at ih hm
      generalize step exit s a = s' at hm
      have hq : ∀ l : List (Ev V), starts l = [] → (starts (s.log ++ l)).Nodup := by
        intro l hl
        rw [starts_append, hl, List.append_nil]
        exact ih
      cases hm with
      | stay => exact ih
      | call c hp => exact ih
      | exit ev hp _ => exact ih
      | exitNone hp _ => exact hq _ rfl
      | phase p hp => exact ih
      | left r _ _ => exact hq _ rfl
      | waited r _ _ => exact hq _ rfl
      | task i t t' l ev ht hmv =>
        cases hmv with
        | begin e es rs hb =>
          show (starts (s.log ++ _)).Nodup
          rw [starts_append, List.nodup_append]
          refine ⟨ih, by simp [starts], ?_⟩
          rintro x hx y hy rfl
          have hy : x ∈ [e.coro.id] := hy
          rw [List.mem_singleton] at hy
          exact hb (hy ▸ hx)
        | again e es rs hb => exact hq _ rfl
        | finish es c rs v => exact hq _ rfl
        | raise es c rs => exact hq _ rfl
        | complete rs => exact hq _ rfl
  intro he
  rw [he, starts_append] at h
  have h1 : starts (Ev.start c :: (l2 ++ .start c :: l3)) = c :: (starts l2 ++ starts (.start c :: l3)) := by
    rw [← starts_append]
    rfl
  rw [h1] at h
  have h2 := (List.nodup_cons.1 (List.nodup_append.1 h).2.1).1
  exact h2 (List.mem_append_right _ (mem_starts.2 List.mem_cons_self))

/-! ### Late calls -/

/-- The coroutine has not begun, and no group task will begin it. -/
def Unknown (c : Nat) (s : St V) : Prop :=
  .start c ∉ s.log ∧ ∀ t ∈ s.tasks, ∀ e ∈ t.todo, e.coro.id ≠ c

theorem unknown_task {c : Nat} {t t' : Task V} {l : List (Ev V)} {b : List Nat}
    (h : ∀ e ∈ t.todo, e.coro.id ≠ c) (hm : TaskMove b t t' l) :
    .start c ∉ l ∧ ∀ e ∈ t'.todo, e.coro.id ≠ c := by
  cases hm with
  | begin e es rs hb =>
    refine ⟨fun hc => ?_, fun x hx => h x (List.mem_cons_of_mem _ hx)⟩
    simp only [List.mem_singleton, Ev.start.injEq] at hc
    exact h e List.mem_cons_self hc.symm
  | again e es rs hb => exact ⟨by simp, h⟩
  | finish es x rs v => exact ⟨by simp, h⟩
  | raise es x rs => exact ⟨by simp, h⟩
  | complete rs => exact ⟨by simp, h⟩

theorem unknown_move {exit : Name} {c : Nat} {s s' : St V} (hm : Move exit s s') (h : Unknown c s)
    (hx : s.tasks.length ≠ s'.tasks.length → ∀ g ∈ s.coros, ∀ e ∈ g.2, e.coro.id ≠ c) :
    Unknown c s' := by
  obtain ⟨h1, h2⟩ := h
  have hnew : s.tasks.length ≠ (s.tasks ++ newTasks s.coros).length ∨ s.coros = [] := by
    cases hc : s.coros with
    | nil => exact .inr rfl
    | cons g gs => left; simp [newTasks]
  have hnew' : (s.tasks.length ≠ (s.tasks ++ newTasks (V := V) s.coros).length →
      ∀ g ∈ s.coros, ∀ e ∈ g.2, e.coro.id ≠ c) →
      ∀ t ∈ s.tasks ++ newTasks s.coros, ∀ e ∈ t.todo, e.coro.id ≠ c := by
    intro hx t ht e he
    rcases List.mem_append.1 ht with ht | ht
    · exact h2 t ht e he
    · unfold newTasks at ht
      obtain ⟨g, hg, rfl⟩ := List.mem_map.1 ht
      rcases hnew with hn | hn
      · exact hx hn g hg e he
      · rw [hn] at hg; cases hg
  cases hm with
  | stay => exact ⟨h1, h2⟩
  | call c hp => exact ⟨h1, h2⟩
  | exit ev hp _ => exact ⟨h1, hnew' hx⟩
  | exitNone hp _ => exact ⟨by simpa using h1, hnew' hx⟩
  | phase p hp => exact ⟨h1, h2⟩
  | left r _ _ => exact ⟨by simpa using h1, h2⟩
  | waited r _ _ => exact ⟨by simpa using h1, h2⟩
  | task i t t' l ev ht hmv =>
    obtain ⟨h3, h4⟩ := unknown_task (h2 t (List.mem_of_getElem? ht)) hmv
    refine ⟨fun hc => ?_, fun x hxm => ?_⟩
    · rcases List.mem_append.1 hc with hc | hc
      · exact h1 hc
      · exact h3 hc
    · rcases List.mem_or_eq_of_mem_set hxm with hxm | rfl
      · exact h2 x hxm
      · exact h4

theorem call_entries {gs : Dict Name (List Entry)} {c : Call} {n : Nat}
    (h : ∀ g ∈ gs, ∀ e ∈ g.2, e.coro.id ≠ n) (hc : c.coro.id ≠ n) :
    ∀ g ∈ (call gs c).1, ∀ e ∈ g.2, e.coro.id ≠ n := by
  have hset : ∀ (gs : Dict Name (List Entry)) (k : Name), (∀ g ∈ gs, ∀ e ∈ g.2, e.coro.id ≠ n) →
      ∀ g ∈ gs.set k [], ∀ e ∈ g.2, e.coro.id ≠ n := by
    intro gs k h
    induction gs with
    | nil => intro g hg e he; simp [Dict.set] at hg; subst hg; cases he
    | cons x gs ih =>
      intro g hg
      simp only [Dict.set] at hg
      split at hg
      · rcases List.mem_cons.1 hg with rfl | hg
        · intro e he; cases he
        · exact h g (List.mem_cons_of_mem _ hg)
      · rcases List.mem_cons.1 hg with rfl | hg
        · exact h _ List.mem_cons_self
        · exact ih (fun g hg => h g (List.mem_cons_of_mem _ hg)) g hg
  have hmod : ∀ (gs : Dict Name (List Entry)) (k : Name) (x : Entry), x.coro.id ≠ n →
      (∀ g ∈ gs, ∀ e ∈ g.2, e.coro.id ≠ n) →
      ∀ g ∈ gs.modify k (· ++ [x]), ∀ e ∈ g.2, e.coro.id ≠ n := by
    intro gs k x hx h
    induction gs with
    | nil => intro g hg; cases hg
    | cons y gs ih =>
      intro g hg
      simp only [Dict.modify] at hg
      split at hg
      · rcases List.mem_cons.1 hg with rfl | hg
        · intro e he
          rcases List.mem_append.1 he with he | he
          · exact h y List.mem_cons_self e he
          · rw [List.mem_singleton.1 he]; exact hx
        · exact h g (List.mem_cons_of_mem _ hg)
      · rcases List.mem_cons.1 hg with rfl | hg
        · exact h _ List.mem_cons_self
        · exact ih (fun g hg => h g (List.mem_cons_of_mem _ hg)) g hg
  unfold call
  have h0 : ∀ g ∈ (if gs.has c.groupName then gs else gs.set c.groupName []), ∀ e ∈ g.2,
      e.coro.id ≠ n := by
    split
    · exact h
    · exact hset gs _ h
  simp only
  split
  · exact hmod _ _ _ hc h0
  · exact h0

/-- **C101.** Only coroutines that were handed over begin, and only at the end of a block: a coroutine
that is handed over after the last block never begins, whatever happens then (in particular
`wait_all()` does not run it). -/
theorem C101_late (exit : Name) (as as' : List (Act V)) (c : Nat) (h : ∀ k, .call k ∈ as → k.coro.id ≠ c)
    (h' : .exit ∉ as') : .start c ∉ (life exit (as ++ as')).log := by
  have h1 : Unknown c (life exit as) ∧ ∀ g ∈ (life exit as).coros, ∀ e ∈ g.2, e.coro.id ≠ c := by
    induction as using snoc_ind with
    | h0 => simp [Unknown, life, run, init]
    | h1 as a ih =>
      obtain ⟨h1, h2⟩ := ih fun k hk => h k (List.mem_append_left _ hk)
      rw [life_snoc]
      refine ⟨unknown_move (step_move ..) h1 fun _ => h2, ?_⟩
      have hcoros : ∀ s' : St V, Move exit (life exit as) s' →
          (s'.coros = (life exit as).coros ∨ ∃ k, a = .call k) →
          s' = step exit (life exit as) a → ∀ g ∈ s'.coros, ∀ e ∈ g.2, e.coro.id ≠ c := by
        intro s' _ hs he
        rcases hs with hs | ⟨k, rfl⟩
        · rw [hs]; exact h2
        · rw [he]
          simp only [step]
          split
          · exact call_entries h2 (h k (by simp))
          · exact h2
      refine hcoros _ (step_move ..) ?_ rfl
      cases a with
      | call k => exact .inr ⟨k, rfl⟩
      | exit => left; simp only [step]; repeat' split
                all_goals rfl
      | start i => left; simp only [step]; repeat' split
                   all_goals rfl
      | finish i v => left; simp only [step]; split <;> rfl
      | raise i => left; simp only [step]; split <;> rfl
      | complete i => left; simp only [step]; split <;> rfl
      | waitAll => left; simp only [step]; repeat' split
                   all_goals rfl
      | proceed => left; simp only [step, awaited]; repeat' split
                   all_goals rfl
      | handle => left; simp only [step]; split <;> rfl
  have h2 : Unknown c (life exit (as ++ as')) := by
    clear h
    induction as' using snoc_ind with
    | h0 => rw [List.append_nil]; exact h1.1
    | h1 as' a ih =>
      rw [← List.append_assoc, life_snoc]
      refine unknown_move (step_move ..) (ih fun hm => h' (List.mem_append_left _ hm)) fun hl => ?_
      exfalso
      apply hl
      cases a with
      | exit => exact absurd (by simp) h'
      | call k => simp only [step]; split <;> rfl
      | start i => simp only [step]; repeat' split
                   all_goals simp
      | finish i v => simp only [step]; split <;> simp
      | raise i => simp only [step]; split <;> simp
      | complete i => simp only [step]; split <;> simp
      | waitAll => simp only [step]; repeat' split
                   all_goals rfl
      | proceed => simp only [step, awaited]; repeat' split
                   all_goals rfl
      | handle => simp only [step]; split <;> rfl
  exact h2.1

theorem setResults_short {gs : Dict Name (List Entry)} {rs : List (List V)}
    (h : rs.length < gs.length) : setResults gs rs = none := by
  induction gs generalizing rs with
  | nil => cases h
  | cons g gs ih =>
    unfold setResults
    cases rs with
    | nil => rfl
    | cons r rs =>
      rw [List.tail_cons, ih (by simpa using h)]
      split
      · rename_i h1; cases h1
      · rfl

theorem call_length (gs : Dict Name (List Entry)) (c : Call) :
    (call gs c).1.length = if c.groupName ∈ gs.keys then gs.length else gs.length + 1 := by
  have hk : ∀ d : Dict Name (List Entry), d.length = d.keys.length := fun d => by simp [Dict.keys]
  have h1 : (call gs c).1.keys = (if gs.has c.groupName then gs else gs.set c.groupName []).keys := by
    unfold call
    simp only
    split
    · rw [Dict.keys_modify]
    · rfl
  rw [hk, h1]
  by_cases h : c.groupName ∈ gs.keys
  · rw [if_pos h, if_pos (Dict.has_iff.2 h), ← hk]
  · rw [if_neg h, if_neg fun h' => h (Dict.has_iff.1 h'), Dict.keys_set, if_neg h, List.length_append,
      ← hk]
    rfl

/-- There are more groups than tasks. -/
structure Short (s : St V) : Prop where
  pos : s.tasks ≠ []
  lt : s.tasks.length < s.coros.length

/-- How often `wait_all()` has returned. -/
def waits (log : List (Ev V)) : Nat := (log.filter fun e => match e with | .waited => true | _ => false).length

theorem waits_append (a b : List (Ev V)) : waits (a ++ b) = waits a + waits b := by
  simp [waits]

theorem short_move {exit : Name} {s s' : St V} (he : exit ≠ "all".toList) (h : Short s)
    (hm : Move exit s s') : Short s' ∧ waits s'.log = waits s.log ∨ s'.tasks.length ≠ s.tasks.length := by
  have hl : s.coros.length ≠ 0 := by have := h.lt; omega
  have hn : (s.tasks ++ newTasks (V := V) s.coros).length ≠ s.tasks.length := by
    simp only [newTasks, List.length_append, List.length_map]; omega
  cases hm with
  | stay => exact .inl ⟨h, rfl⟩
  | call c hp =>
    refine .inl ⟨⟨h.pos, ?_⟩, rfl⟩
    show s.tasks.length < (call s.coros c).1.length
    rw [call_length]
    have := h.lt
    split <;> omega
  | exit ev hp _ => exact .inr hn
  | exitNone hp _ => exact .inr hn
  | phase p hp => exact .inl ⟨⟨h.pos, h.lt⟩, rfl⟩
  | left r _ _ => exact .inl ⟨⟨h.pos, h.lt⟩, by rw [waits_append]; rfl⟩
  | waited r h1 h2 =>
    exfalso
    rcases h2 with ⟨_, h2 | h2⟩ | h2
    · exact he h2
    · exact h.pos h2
    · have := h1 h2
      rw [setResults_short (by simpa using h.lt)] at this
      cases this
  | task i t t' l ev ht hmv =>
    refine .inl ⟨⟨?_, by show (s.tasks.set i t').length < _; rw [List.length_set]; exact h.lt⟩, ?_⟩
    · show s.tasks.set i t' ≠ []
      intro h0
      have := congrArg List.length h0
      rw [List.length_set] at this
      exact h.pos (List.length_eq_zero_iff.1 this)
    · show waits (s.log ++ l) = _
      rw [waits_append]
      cases hmv <;> rfl

theorem exit_length (exit : Name) (s : St V) (a : Act V) (h : a ≠ .exit) :
    (step exit s a).tasks.length = s.tasks.length := by
  cases a with
  | exit => exact absurd rfl h
  | call k => simp only [step]; split <;> rfl
  | start i => simp only [step]; repeat' split
               all_goals simp
  | finish i v => simp only [step]; split <;> simp
  | raise i => simp only [step]; split <;> simp
  | complete i => simp only [step]; split <;> simp
  | waitAll => simp only [step]; repeat' split
               all_goals rfl
  | proceed => simp only [step, awaited]; repeat' split
               all_goals rfl
  | handle => simp only [step]; split <;> rfl

theorem call_coros (exit : Name) (s : St V) (a : Act V) (h : ∀ k, a ≠ .call k) :
    (step exit s a).coros = s.coros := by
  cases a with
  | call k => exact absurd rfl (h k)
  | exit => simp only [step]; repeat' split
            all_goals rfl
  | start i => simp only [step]; repeat' split
               all_goals rfl
  | finish i v => simp only [step]; split <;> rfl
  | raise i => simp only [step]; split <;> rfl
  | complete i => simp only [step]; split <;> rfl
  | waitAll => simp only [step]; repeat' split
               all_goals rfl
  | proceed => simp only [step, awaited]; repeat' split
               all_goals rfl
  | handle => simp only [step]; split <;> rfl

theorem run_calls (exit : Name) (cs : List Call) :
    life exit (cs.map Act.call) = { init V with coros := Executor.table cs } := by
  have h : ∀ (cs : List Call) (gs : Dict Name (List Entry)),
      run exit ({ init V with coros := gs }) (cs.map Act.call) =
        { init V with coros := cs.foldl (fun gs c => (call gs c).1) gs } := by
    intro cs
    induction cs with
    | nil => intro gs; rfl
    | cons c cs ih =>
      intro gs
      exact ih _
  rw [← Executor.coros_table]
  exact h cs []

/-- A block with the calls `cs`, and what happens then. -/
def block (exit : Name) (cs : List Call) (as : List (Act V)) : St V :=
  life exit (cs.map .call ++ .exit :: as)

theorem block_snoc (exit : Name) (cs : List Call) (as : List (Act V)) (a : Act V) :
    block exit cs (as ++ [a]) = step exit (block exit cs as) a := by
  unfold block
  rw [← life_snoc]
  simp

theorem block_nil (exit : Name) (cs : List Call) :
    block (V := V) exit cs [] = step exit { init V with coros := Executor.table cs } .exit := by
  unfold block
  rw [life_snoc, run_calls]

/-- **C101 is false** for calls behind the block, in every case: if a coroutine of a new group is handed
over between a block with exit mode `"none"` or `"any"` and `wait_all()`, then `wait_all()` never
returns (it raises `IndexError`, `C101_index_violated`). -/
theorem C101_wait_late_violated (exit : Name) (cs : List Call) (c : Call) (as as' : List (Act V))
    (hv : ValidExit exit) (he : exit ≠ "all".toList) (hne : cs ≠ [])
    (hc : Executor.key c ∉ cs.map Executor.key)
    (h : ∀ a ∈ as, a ≠ .exit ∧ ∀ k, a ≠ .call k) (h' : .exit ∉ as')
    (hp : (block exit cs as).phase = .idle) :
    waits (block exit cs (as ++ .call c :: as')).log = waits (block exit cs as).log := by
  have h0 : (block exit cs as).tasks.length = (Executor.table cs).length ∧
      (block exit cs as).coros = Executor.table cs := by
    clear hp
    induction as using snoc_ind with
    | h0 =>
      rw [block_nil]
      rcases hv with rfl | rfl | rfl
      · exact ⟨by simp [step, init, newTasks], rfl⟩
      · exact ⟨by simp [step, init, newTasks], rfl⟩
      · exact ⟨by simp [step, init, newTasks], rfl⟩
    | h1 as a ih =>
      obtain ⟨h1, h2⟩ := ih fun x hx => h x (List.mem_append_left _ hx)
      have ha := h a (by simp)
      rw [block_snoc, exit_length _ _ _ ha.1, call_coros _ _ _ ha.2]
      exact ⟨h1, h2⟩
  have hkeys : (Executor.table cs).keys = Executor.firsts (cs.map Executor.key) := by
    unfold Executor.table Dict.keys
    rw [← Executor.groupsOf_eq, List.map_map]
    simp [Function.comp_def]
  have hpos : (Executor.table cs).length ≠ 0 := by
    have : (Executor.table cs).keys ≠ [] := by
      rw [hkeys]
      cases cs with
      | nil => exact absurd rfl hne
      | cons x xs =>
        exact List.ne_nil_of_mem (Executor.firsts_mem.2 (by rw [List.map_cons]; exact List.mem_cons_self))
    intro h
    rw [List.length_eq_zero_iff] at h
    rw [h] at this
    exact this rfl
  have h1 : Short (block exit cs (as ++ [.call c])) ∧
      (block exit cs (as ++ [.call c])).log = (block exit cs as).log := by
    rw [block_snoc]
    simp only [step, if_pos hp]
    refine ⟨⟨?_, ?_⟩, trivial⟩
    · intro hn
      have hn : (block exit cs as).tasks = [] := hn
      rw [hn] at h0
      exact hpos h0.1.symm
    · show (block exit cs as).tasks.length < (call (block exit cs as).coros c).1.length
      rw [call_length, h0.1, h0.2, if_neg]
      · exact Nat.lt_succ_self _
      · rw [hkeys, Executor.firsts_mem, Executor.key_eq]
        exact hc
  have h2 : Short (block exit cs (as ++ [.call c] ++ as')) ∧
      waits (block exit cs (as ++ [.call c] ++ as')).log = waits (block exit cs as).log := by
    induction as' using snoc_ind with
    | h0 => rw [List.append_nil]; exact ⟨h1.1, by rw [h1.2]⟩
    | h1 as' a ih =>
      obtain ⟨h3, h4⟩ := ih fun hm => h' (List.mem_append_left _ hm)
      rw [← List.append_assoc, block_snoc]
      have hx : a ≠ .exit := fun hx => h' (by rw [hx]; simp)
      rcases short_move he h3 (step_move exit _ a) with ⟨h5, h6⟩ | h5
      · exact ⟨h5, h6.trans h4⟩
      · exact absurd (exit_length _ _ _ hx) h5
  have := h2.2
  rwa [List.append_assoc] at this

/-- A coroutine that is not a driver call. -/
def plain (id : Nat) (name : String) : Call := ⟨⟨id, name.toList, none⟩, none, none, none⟩

/-- One coroutine is executed in a block with exit mode `"none"`. -/
def demoRun : List (Act Nat) := [.start 0, .finish 0 7, .complete 0]

/-- **C101 is false**: the `IndexError` of `wait_all()` after a late call. -/
theorem C101_index_violated :
    (block "none".toList [plain 0 "f"] (demoRun ++ [.waitAll, .proceed])).results =
      [("f".toList, .one 7)] ∧
    (block "none".toList [plain 0 "f"] (demoRun ++ [.call (plain 1 "g"), .waitAll, .proceed])).phase =
      .raised .index := by
  decide +kernel

/-- **C101 is false**: a late call in an old group is not run, but changes what `get_results()` says of
the coroutine that was: `[7]` and not `7`. -/
theorem C101_shape_violated :
    (block "none".toList [plain 0 "f"] (demoRun ++ [.call (plain 1 "f"), .waitAll, .proceed])).results =
      [("f".toList, .many [7])] := by
  decide +kernel

/-- **C101 is false**: the exception of the second block, also if nothing was handed over in it. -/
theorem C101_reuse_violated :
    (block "all".toList [plain 0 "f"] (demoRun ++ [.proceed])).phase = .idle ∧
    (block "all".toList [plain 0 "f"] (demoRun ++ [.proceed, .exit, .start 1, .proceed])).phase =
      .raised (.reuse 0) := by
  decide +kernel

/-! ### The first block -/

/-- The same step of a single block. -/
def tr : Executor.Act V → Act V
  | .call c => .call c
  | .exit => .exit
  | .start i => .start i
  | .finish i v => .finish i v
  | .raise i => .raise i
  | .complete i => .complete i
  | .waitAll => .waitAll
  | .proceed => .proceed

/-- The same phase of a single block. -/
def trPhase : Executor.Phase → Phase
  | .inside => .idle
  | .leaving => .leaving
  | .left => .idle
  | .waiting => .waiting
  | .error => .raised .value
  | .raised c => .raised (.coro c)

def trTask (t : Executor.Task V) : Task V :=
  ⟨t.todo, t.cur, t.results, t.done, t.err.map .coro⟩

/-- What happens to the coroutines. -/
def coroEvents (log : List (Ev V)) : List (Executor.Ev V) :=
  log.filterMap fun e => match e with
    | .start c => some (.start c)
    | .finish c v => some (.finish c v)
    | .raise c => some (.raise c)
    | _ => none

structure Same (s : St V) (s0 : Executor.St V) : Prop where
  coros : s.coros = s0.coros
  tasks : s.tasks = s0.tasks.map trTask
  base : s.base = 0
  results : s.results = s0.results
  event : s.event = s0.event
  phase : s.phase = trPhase s0.phase
  log : coroEvents s.log = s0.log

theorem await_same (ts : List (Executor.Task V)) :
    await (ts.map trTask) = match Executor.await ts with
      | some .left => some none
      | some (.raised c) => some (some (.coro c))
      | _ => none := by
  induction ts with
  | nil => rfl
  | cons t ts ih =>
    rw [List.map_cons]
    unfold await Executor.await
    cases hd : t.done with
    | true => simp [trTask, hd, ih]
    | false =>
      cases he : t.err with
      | none => simp [trTask, hd, he]
      | some c => simp [trTask, hd, he]

theorem setResults_same {gs : Dict Name (List Entry)} {rs : List (List V)} (hl : rs.length = gs.length)
    (h : ∀ (i : Nat) g r, gs[i]? = some g → rs[i]? = some r → r.length = g.2.length) :
    setResults gs rs = some (Executor.setResults gs rs) := by
  induction gs generalizing rs with
  | nil =>
    cases rs with
    | nil => rfl
    | cons r rs => cases hl
  | cons g gs ih =>
    cases rs with
    | nil => cases hl
    | cons r rs =>
      have h0 := h 0 g r rfl rfl
      have h1 := ih (rs := rs) (by simpa using hl) fun i g r hg hr => h (i + 1) g r hg hr
      unfold setResults
      rw [List.head?_cons, List.tail_cons, h1]
      have h2 : res g.2 (some r) = some (Executor.res g.2 r) := by
        unfold res Executor.res
        simp only
        cases hg : g.2 with
        | nil => simp
        | cons x xs =>
          rw [hg] at h0
          cases xs with
          | nil =>
            cases r with
            | nil => cases h0
            | cons v r => simp
          | cons y ys => simp
      rw [h2]
      rfl

theorem coroEvents_append (a b : List (Ev V)) : coroEvents (a ++ b) = coroEvents a ++ coroEvents b :=
  List.filterMap_append ..

theorem starts_events (log : List (Ev V)) (c : Nat) :
    c ∈ starts log ↔ Executor.Ev.start c ∈ coroEvents log := by
  rw [mem_starts]
  unfold coroEvents
  rw [List.mem_filterMap]
  constructor
  · exact fun h => ⟨_, h, rfl⟩
  · rintro ⟨e, he, h⟩
    cases e <;> simp at h
    exact h ▸ he

/-- In a block with distinct coroutines the next coroutine of a group has not begun. -/
theorem next_fresh {cs : List Call} (hd : Distinct cs) {s : Executor.St V}
    (h : Executor.TasksOk (Executor.table cs) s) {i : Nat} {e : Entry} {es : List Entry} {rs : List V}
    (ht : s.tasks[i]? = some ⟨e :: es, none, rs, false, none⟩) : .start e.coro.id ∉ s.log := by
  have hlt : i < (Executor.table cs).length := by
    rw [← h.length]
    exact (List.getElem?_eq_some_iff.1 ht).1
  have hg := List.getElem?_eq_getElem hlt
  obtain ⟨pre, h1, h2, h3, _⟩ := h.tasks i _ _ hg ht
  intro hs
  obtain ⟨_, hids⟩ := Executor.ids_table hg
  have hnd : (Executor.ids (Executor.table cs)[i].2).Nodup := by
    rw [hids, Executor.ids_members]
    unfold Executor.members
    exact List.Nodup.sublist (List.Sublist.map _ List.filter_sublist) hd
  have hm : e.coro.id ∈ Executor.ids (Executor.table cs)[i].2 := by
    rw [h1]; simp [Executor.ids]
  have h4 : .start e.coro.id ∈ Executor.proj (Executor.ids (Executor.table cs)[i].2) s.log := by
    unfold Executor.proj
    rw [List.mem_filter]
    exact ⟨hs, decide_eq_true hm⟩
  rw [h3] at h4
  simp only [Option.toList_none, List.map_nil, List.flatMap_nil, List.append_nil] at h4
  obtain ⟨j, hj, _⟩ := Executor.start_mem_seqTrace h4
  rw [h1] at hnd
  have := (List.nodup_append.1 hnd).2.2 _ (List.mem_of_getElem? hj) e.coro.id (by simp [Executor.ids])
  exact this rfl

theorem done_length {cs : List Call} {s : Executor.St V}
    (h : Executor.TasksOk (Executor.table cs) s) (ha : ∀ t ∈ s.tasks, t.done = true) :
    setResults s.coros (s.tasks.map (·.results)) =
      some (Executor.setResults s.coros (s.tasks.map (·.results))) := by
  apply setResults_same
  · rw [List.length_map, h.length, h.coros]
  · intro i g r hg hr
    rw [List.getElem?_map, Option.map_eq_some_iff] at hr
    obtain ⟨t, ht, rfl⟩ := hr
    rw [h.coros] at hg
    obtain ⟨pre, h1, h2, _, h4, _⟩ := h.tasks i g t hg ht
    obtain ⟨h5, h6, h7⟩ := h4 (ha t (List.mem_of_getElem? ht))
    rw [h5, h6, h7] at h1
    have := congrArg List.length h1
    simp only [Executor.ids, List.length_map, Option.toList_none, List.map_nil, List.append_nil] at this
    rw [this, h2]

theorem awaited_same {cs : List Call} {s : St V} {s0 : Executor.St V} (hs : Same s s0)
    (h : Executor.TasksOk (Executor.table cs) s0) {ts : List (Task V)} (hts : ts = s.tasks) (ev : Ev V)
    (hev : coroEvents [ev] = []) : Same (awaited s ts ev) (Executor.awaited s0) := by
  subst hts
  have hw := await_same s0.tasks
  rw [← hs.tasks] at hw
  have hr : s.tasks.map (·.results) = s0.tasks.map (·.results) := by
    rw [hs.tasks, List.map_map]
    rfl
  unfold awaited Executor.awaited
  rcases Executor.await_cases s0.tasks with ⟨h1, h2⟩ | ⟨l, t, r, c, _, _, _, _, h1⟩ | ⟨l, t, r, _, _, _, _, h1⟩
  · rw [h1] at hw ⊢
    rw [hw]
    simp only
    rw [hr, hs.coros, done_length h h2]
    exact ⟨rfl, hs.tasks, hs.base, rfl, hs.event, rfl, by
      show coroEvents (s.log ++ [ev]) = _
      rw [coroEvents_append, hev, List.append_nil]; exact hs.log⟩
  · rw [h1] at hw ⊢
    rw [hw]
    exact ⟨hs.coros, hs.tasks, hs.base, hs.results, hs.event, rfl, hs.log⟩
  · rw [h1] at hw ⊢
    rw [hw]
    exact hs

theorem task_same {s : St V} {s0 : Executor.St V} (hs : Same s s0) (i : Nat) :
    s.tasks[i]? = s0.tasks[i]?.map trTask := by
  rw [hs.tasks, List.getElem?_map]

theorem set_same {s : St V} {s0 : Executor.St V} (hs : Same s s0) (i : Nat) (t' : Executor.Task V)
    (l : List (Ev V)) (ev : Bool) :
    Same { s with tasks := s.tasks.set i (trTask t'), log := s.log ++ l, event := ev }
      { s0 with tasks := s0.tasks.set i t', log := s0.log ++ coroEvents l, event := ev } :=
  ⟨hs.coros, by show s.tasks.set i (trTask t') = _; rw [hs.tasks, List.map_set], hs.base, hs.results, rfl,
    hs.phase, by show coroEvents (s.log ++ l) = _; rw [coroEvents_append, hs.log]⟩

theorem same_step {exit : Name} {cs : List Call} (hd : Distinct cs) {s : St V} {s0 : Executor.St V}
    (hs : Same s s0) (h : Executor.TasksOk (Executor.table cs) s0) (hp : s0.phase ≠ .inside)
    (a : Executor.Act V) (ha : a ≠ .exit ∧ ∀ c, a ≠ .call c) :
    Same (step exit s (tr a)) (Executor.step exit s0 a) := by
  cases a with
  | exit => exact absurd rfl ha.1
  | call c => exact absurd rfl (ha.2 c)
  | start i =>
    simp only [tr, step, Executor.step]
    rw [task_same hs]
    cases ht : s0.tasks[i]? with
    | none => exact hs
    | some t =>
      obtain ⟨todo, cur, rs, done, err⟩ := t
      simp only [Option.map_some, trTask]
      cases todo with
      | nil => exact hs
      | cons e es =>
        cases cur with
        | some c => exact hs
        | none =>
          cases done with
          | true => exact hs
          | false =>
            cases err with
            | some c => exact hs
            | none =>
              have hf := next_fresh hd h ht
              rw [← hs.log, ← starts_events] at hf
              simp only [Option.map_none]
              rw [if_neg hf]
              have := set_same hs i ⟨es, some e.coro, rs, false, none⟩ [.start e.coro.id] s.event
              rw [hs.event] at this
              have h2 : s = { s with event := s0.event } := by rw [← hs.event]
              rw [h2]
              exact this
  | finish i v =>
    simp only [tr, step, Executor.step]
    rw [task_same hs]
    cases ht : s0.tasks[i]? with
    | none => exact hs
    | some t =>
      obtain ⟨todo, cur, rs, done, err⟩ := t
      simp only [Option.map_some, trTask]
      cases cur with
      | none => exact hs
      | some c =>
        cases done with
        | true => exact hs
        | false =>
          cases err with
          | some c => exact hs
          | none =>
            have := set_same hs i ⟨todo, none, rs ++ [v], false, none⟩ [.finish c.id v] s.event
            rw [hs.event] at this
            have h2 : s = { s with event := s0.event } := by rw [← hs.event]
            rw [h2]
            exact this
  | raise i =>
    simp only [tr, step, Executor.step]
    rw [task_same hs]
    cases ht : s0.tasks[i]? with
    | none => exact hs
    | some t =>
      obtain ⟨todo, cur, rs, done, err⟩ := t
      simp only [Option.map_some, trTask]
      cases cur with
      | none => exact hs
      | some c =>
        cases done with
        | true => exact hs
        | false =>
          cases err with
          | some c => exact hs
          | none =>
            have := set_same hs i ⟨todo, none, rs, false, some c.id⟩ [.raise c.id] s.event
            rw [hs.event] at this
            have h2 : s = { s with event := s0.event } := by rw [← hs.event]
            rw [h2]
            exact this
  | complete i =>
    simp only [tr, step, Executor.step]
    rw [task_same hs]
    cases ht : s0.tasks[i]? with
    | none => exact hs
    | some t =>
      obtain ⟨todo, cur, rs, done, err⟩ := t
      simp only [Option.map_some, trTask]
      cases todo with
      | cons e es => exact hs
      | nil =>
        cases cur with
        | some c => exact hs
        | none =>
          cases done with
          | true => exact hs
          | false =>
            cases err with
            | some c => exact hs
            | none =>
              have := set_same hs i ⟨[], none, rs, true, none⟩ []
                (if exit = "any".toList then true else s.event)
              simp only [List.append_nil, coroEvents, List.filterMap_nil] at this
              rw [hs.event] at this ⊢
              exact this
  | waitAll =>
    simp only [tr, step, Executor.step]
    rw [hs.phase]
    cases hq : s0.phase with
    | inside => exact absurd hq hp
    | left =>
      simp only [trPhase, if_true]
      have hn : s.tasks = [] ↔ s0.tasks = [] := by rw [hs.tasks, List.map_eq_nil_iff]
      by_cases hx : exit = "all".toList ∨ s0.tasks = []
      · rw [if_pos hx, if_pos (by rw [hn]; exact hx)]
        exact ⟨hs.coros, hs.tasks, hs.base, hs.results, hs.event, by rw [hq]; rfl, by
          show coroEvents (s.log ++ [.waited]) = _
          rw [coroEvents_append, hs.log]; exact List.append_nil _⟩
      · rw [if_neg hx, if_neg (by rw [hn]; exact hx)]
        exact ⟨hs.coros, hs.tasks, hs.base, hs.results, hs.event, rfl, hs.log⟩
    | leaving => simp only [trPhase, reduceCtorEq, if_false]; exact hs
    | waiting => simp only [trPhase, reduceCtorEq, if_false]; exact hs
    | error => simp only [trPhase, reduceCtorEq, if_false]; exact hs
    | raised c => simp only [trPhase, reduceCtorEq, if_false]; exact hs
  | proceed =>
    simp only [tr, step, Executor.step]
    rw [hs.phase]
    cases hq : s0.phase with
    | inside => exact absurd hq hp
    | left => exact hs
    | error => exact hs
    | raised c => exact hs
    | waiting => exact awaited_same hs h rfl _ rfl
    | leaving =>
      simp only [trPhase]
      by_cases hx : exit = "all".toList
      · rw [if_pos hx, if_pos hx]
        exact awaited_same hs h (by rw [hs.base]; rfl) _ rfl
      · rw [if_neg hx, if_neg hx, hs.event]
        cases he : s0.event with
        | false => exact hs
        | true =>
          refine ⟨hs.coros, hs.tasks, hs.base, hs.results, rfl, rfl, ?_⟩
          show coroEvents (s.log ++ [.left]) = _
          rw [coroEvents_append, hs.log]; exact List.append_nil _

/-- **C101.** The first block of an executor is exactly the block of C19, C20, C68, C78 and C100: the same
things happen to the coroutines, with the same results and the same outcome, so that all of these hold for
it.  Missing: further blocks (`C101_second_block_violated`) and late calls
(`C101_wait_late_violated`, `C101_shape_violated`). -/
theorem C101_first_block_partial (exit : Name) (cs : List Call) (as : List (Executor.Act V))
    (hv : ValidExit exit) (hd : Distinct cs) (h : ∀ a ∈ as, a ≠ .exit ∧ ∀ c, a ≠ .call c) :
    let s := block exit cs (as.map tr)
    let s0 := Executor.after exit cs as
    coroEvents s.log = s0.log ∧ s.results = s0.results ∧ s.phase = trPhase s0.phase := by
  have hs : Same (block exit cs (as.map tr)) (Executor.after exit cs as) := by
    induction as using snoc_ind with
    | h0 =>
      rw [List.map_nil, block_nil]
      unfold Executor.after
      rw [Executor.run_append, Executor.run_calls]
      have ht : newTasks (V := V) (Executor.table cs) = (Executor.newTasks (Executor.table cs)).map trTask := by
        unfold newTasks Executor.newTasks
        rw [List.map_map]
        rfl
      rcases hv with rfl | rfl | rfl
      · exact ⟨rfl, ht, rfl, rfl, rfl, rfl, rfl⟩
      · exact ⟨rfl, ht, rfl, rfl, rfl, rfl, rfl⟩
      · exact ⟨rfl, ht, rfl, rfl, rfl, rfl, rfl⟩
    | h1 as a ih =>
      rw [List.map_append, List.map_singleton, block_snoc, Executor.after_append]
      obtain ⟨h1, h2⟩ := Executor.after_ok hv hd as
      exact same_step hd (ih fun x hx => h x (List.mem_append_left _ hx)) h1 h2 a (h a (by simp))
  exact ⟨hs.log, hs.results, hs.phase⟩

/-- The hypotheses of the theorems above: a block that was left after a coroutine had begun; a late
call of a new group. -/
example :
    LeftAfter (block "all".toList [plain 0 "f"] (demoRun ++ [.proceed])).log ∧
    (block "none".toList [plain 0 "f"] demoRun).phase = .idle ∧
    Executor.key (plain 1 "g") ∉ [plain 0 "f"].map Executor.key ∧ Distinct [plain 0 "f"] := by
  have h : (block "all".toList [plain 0 "f"] (demoRun ++ [.proceed])).log =
      [.start 0, .finish 0 7] ++ .left :: [] := by decide +kernel
  exact ⟨⟨0, _, _, h, by simp⟩, by decide +kernel, by decide +kernel, by unfold Distinct; decide⟩

end Toffee.ExecutorLife
