import Verif.Props.Executor

/-! Coroutines of an executor that raise exceptions (`toffee/executor.py` 71-161, 217-246,
`toffee/asynchronous.py` 294-308): C78. -/

namespace Toffee.Executor

variable {V : Type}

/-! ### Specification -/

/-- The names of the groups, in the order of first use. -/
def groupNames (cs : List Call) : List Name := firsts (cs.map key)

/-- Some coroutine raised. -/
def Failed (log : List (Ev V)) : Prop := ∃ c, .raise c ∈ log

/-! ### Proofs -/

/-- A coroutine that raised ended the task of its group. -/
theorem raise_err {exit : Name} {cs : List Call} (hv : ValidExit exit) (hd : Distinct cs)
    (as : List (Act V)) {c : Nat} (h : .raise c ∈ (after exit cs as).log) :
    ∃ (i : Nat) (t : Task V), (after exit cs as).tasks[i]? = some t ∧ t.err = some c := by
  induction as using snoc_ind with
  | h0 =>
    rw [(after_nil (V := V) cs hv).2.2.2.2.2.1] at h
    cases h
  | h1 as a ih =>
    rw [after_append] at h ⊢
    have hp := (after_ok (V := V) hv hd as).2
    generalize after exit cs as = s at ih h hp
    replace h : .raise c ∈ (step exit s a).log := h
    show ∃ (i : Nat) (t : Task V), (step exit s a).tasks[i]? = some t ∧ t.err = some c
    have hkeep : .raise c ∈ s.log →
        ∃ (i : Nat) (t : Task V), (step exit s a).tasks[i]? = some t ∧ t.err = some c := by
      intro hs
      obtain ⟨i, t, h1, h2⟩ := ih hs
      exact ⟨i, t, ended_step exit hp h1 (.inr (by rw [h2]; simp)) a, h2⟩
    revert h hkeep
    cases a with
    | raise i =>
      simp only [step]
      split
      · rename_i es x rs ht
        intro h hkeep
        rcases List.mem_append.1 h with h | h
        · exact hkeep h
        · rw [List.mem_singleton] at h
          cases h
          have hlt := (List.getElem?_eq_some_iff.1 ht).1
          exact ⟨i, _, List.getElem?_set_self hlt, rfl⟩
      · intro h hkeep; exact hkeep h
    | start i =>
      simp only [step]
      split <;> intro h hkeep <;> apply hkeep <;> simpa using h
    | finish i v =>
      simp only [step]
      split <;> intro h hkeep <;> apply hkeep <;> simpa using h
    | complete i =>
      simp only [step]
      split <;> intro h hkeep <;> exact hkeep h
    | waitAll =>
      simp only [step]
      repeat' split
      all_goals (intro h hkeep; exact hkeep h)
    | call c => simp only [step, if_neg hp]; intro h hkeep; exact hkeep h
    | exit => simp only [step, if_neg hp]; intro h hkeep; exact hkeep h
    | proceed =>
      rcases proceed_cases exit s with h1 | ⟨_, _, _, h1⟩ | ⟨_, _, h1⟩ |
        ⟨_, _, _, _, _, _, _, _, _, h1⟩ <;> rw [h1] <;> intro h hkeep <;> exact hkeep h

theorem not_allDone {exit : Name} {cs : List Call} (hv : ValidExit exit) (hd : Distinct cs)
    (as : List (Act V)) (h : Failed (after exit cs as).log) : allDone (after exit cs as) = false := by
  obtain ⟨c, hc⟩ := h
  obtain ⟨i, t, h1, h2⟩ := raise_err hv hd as hc
  obtain ⟨g, hg⟩ := group_of (after_ok (V := V) hv hd as).1 h1
  obtain ⟨_, _, _, _, h4, _⟩ := (after_ok (V := V) hv hd as).1.tasks i g t hg h1
  apply Bool.eq_false_iff.2
  intro hall
  unfold allDone at hall
  rw [List.all_eq_true] at hall
  have := (h4 (hall t (List.mem_of_getElem? h1))).2.1
  rw [h2] at this
  cases this

/-- **C78**: the coroutines behind one that raised in the same group never start, and a coroutine
that raised does not return. -/
theorem C78_rest_of_group (exit : Name) (cs : List Call) (as : List (Act V)) (hd : Distinct cs)
    (g : Name) (l r : List Nat) (c : Nat) (hg : group cs g = l ++ c :: r)
    (h : .raise c ∈ (after exit cs as).log) :
    (∀ x ∈ r, .start x ∉ (after exit cs as).log) ∧ ∀ v, .finish c v ∉ (after exit cs as).log := by
  have hnd : (group cs g).Nodup := by
    unfold group
    exact List.Nodup.sublist (List.Sublist.map _ List.filter_sublist) hd
  have h1 := C19_sequential exit cs as g hd
  generalize (after exit cs as).log = log at h h1
  have hproj : ∀ e : Ev V, e ∈ log → e.id ∈ group cs g → e ∈ proj (group cs g) log := by
    intro e he hm
    unfold proj
    rw [List.mem_filter]
    exact ⟨he, decide_eq_true hm⟩
  have hc := hproj _ h (by rw [hg]; simp [Ev.id])
  have hraise : ∀ (a : List Nat) (va : List V) (x : Nat), Ev.raise x ∉ seqTrace a va := by
    intro a
    induction a with
    | nil => simp [seqTrace]
    | cons y a ih =>
      intro va x
      cases va with
      | nil => simp [seqTrace]
      | cons w va => simp [seqTrace, ih]
  obtain ⟨vs, h2, h3⟩ := h1
  have hpos : (group cs g)[vs.length]? = some c ∧
      proj (group cs g) log = seqTrace (group cs g) vs ++ [.start c, .raise c] := by
    rcases h3 with h3 | ⟨c', h4, h3 | h3⟩
    · rw [h3] at hc
      exact absurd hc (hraise _ _ _)
    · rw [h3, List.mem_append] at hc
      rcases hc with hc | hc
      · exact absurd hc (hraise _ _ _)
      · simp at hc
    · rw [h3, List.mem_append] at hc
      rcases hc with hc | hc
      · exact absurd hc (hraise _ _ _)
      · simp at hc
        subst hc
        exact ⟨h4, h3⟩
  obtain ⟨hp1, hp2⟩ := hpos
  have huniq : ∀ (i j x : Nat), (group cs g)[i]? = some x → (group cs g)[j]? = some x → i = j := by
    intro i j x hi hj
    obtain ⟨hi1, hi2⟩ := List.getElem?_eq_some_iff.1 hi
    obtain ⟨hj1, hj2⟩ := List.getElem?_eq_some_iff.1 hj
    exact (List.getElem_inj hnd).1 (hi2.trans hj2.symm)
  have hlen : vs.length = l.length := huniq _ _ c hp1 (by rw [hg]; simp)
  refine ⟨fun x hx hs => ?_, fun v hf => ?_⟩
  · obtain ⟨j, hj, rfl⟩ := List.getElem_of_mem hx
    have hxj : (group cs g)[l.length + (j + 1)]? = some r[j] := by
      rw [hg, List.getElem?_append_right (by omega)]
      simp
    have hs' := hproj _ hs (List.mem_of_getElem? hxj)
    rw [hp2, List.mem_append] at hs'
    rcases hs' with hs' | hs'
    · obtain ⟨i, h4, h5⟩ := start_mem_seqTrace hs'
      have := huniq _ _ _ h4 hxj
      omega
    · simp at hs'
      rw [hs'] at hxj
      have := huniq _ _ _ hp1 hxj
      omega
  · have hf' := hproj _ hf (by rw [hg]; simp [Ev.id])
    rw [hp2, List.mem_append] at hf'
    rcases hf' with hf' | hf'
    · obtain ⟨i, h4, h5⟩ := finish_mem_seqTrace.1 hf'
      have := huniq _ _ _ h4 hp1
      have := (List.getElem?_eq_some_iff.1 h5).1
      omega
    · simp at hf'

/-- **C78**: an `Executor()` block in which a coroutine raised is never left normally. -/
theorem C78_not_left (cs : List Call) (as : List (Act V)) (hd : Distinct cs)
    (h : Failed (after "all".toList cs as).log) : (after "all".toList cs as).phase ≠ .left := by
  intro hl
  have h1 := (phaseOk_after (V := V) (.inl rfl) hd as).all rfl hl
  have h2 := not_allDone (.inl rfl) hd as h
  rw [h1.1] at h2
  cases h2

/-- **C78**: `wait_all()` does not return normally if a coroutine has raised. -/
theorem C78_wait_all (exit : Name) (cs : List Call) (as as' : List (Act V)) (hv : ValidExit exit)
    (hd : Distinct cs) (hl : (after exit cs as).phase = .left)
    (h : Failed (after exit cs (as ++ .waitAll :: as')).log) :
    (after exit cs (as ++ .waitAll :: as')).phase ≠ .left := by
  intro hl'
  have h1 := wait_final as as' hv hd hl hl'
  have h2 := not_allDone hv hd _ h
  rw [h1.1] at h2
  cases h2

/-- **C78**: an exception that the end of the block or `wait_all()` raises is that of a coroutine, and
all coroutines of the groups before its group have returned. -/
theorem C78_first (exit : Name) (cs : List Call) (as : List (Act V)) (hv : ValidExit exit)
    (hd : Distinct cs) (c : Nat) (h : (after exit cs as).phase = .raised c) :
    ∃ gs g gs', groupNames cs = gs ++ g :: gs' ∧ c ∈ group cs g ∧ .raise c ∈ (after exit cs as).log ∧
      ∀ g' ∈ gs, ∀ x ∈ group cs g', ∃ v, .finish x v ∈ (after exit cs as).log := by
  obtain ⟨hok, _⟩ := after_ok (V := V) hv hd as
  obtain ⟨i, t, h1, h2, h3⟩ := raised_first hv hd as h
  obtain ⟨g, h4, h5, h6⟩ := err_raise hok h1 h2
  obtain ⟨hi, hie⟩ := List.getElem?_eq_some_iff.1 h4
  refine ⟨(groupsOf cs).take i, g, (groupsOf cs).drop (i + 1), ?_, h5, h6, fun g' hg' => ?_⟩
  · unfold groupNames
    rw [← groupsOf_eq, ← hie, ← List.drop_eq_getElem_cons, List.take_append_drop]
  · obtain ⟨j, hj, rfl⟩ := List.getElem_of_mem hg'
    have hji : j < i := by simp at hj; omega
    have hjl : j < (after exit cs as).tasks.length := by
      have := (List.getElem?_eq_some_iff.1 h1).1
      omega
    obtain ⟨g'', h7, h8⟩ := done_group hok (List.getElem?_eq_getElem hjl)
      (h3 j hji _ (List.getElem?_eq_getElem hjl))
    rw [List.getElem_take]
    rw [List.getElem?_eq_getElem (by omega)] at h7
    cases h7
    exact h8

/-- **C78**: with `exit="all"` the test gets the exception: only finitely many steps are possible, and
when none is possible and a coroutine has raised, then the block has been left by an exception. -/
theorem C78_reported (cs : List Call) (as : List (Act V)) (v : V) (hd : Distinct cs) :
    ∃ n, ∀ as', Effective "all".toList (after "all".toList cs as) as' → as'.length ≤ n ∧
      ((∀ a, Progress a → step "all".toList (run "all".toList (after "all".toList cs as) as') a =
          run "all".toList (after "all".toList cs as) as') →
        Failed (run "all".toList (after "all".toList cs as) as').log →
        ∃ c, (run "all".toList (after "all".toList cs as) as').phase = .raised c) := by
  refine ⟨work (after "all".toList cs as), fun as' he => ⟨effective_length he, fun hstuck hf => ?_⟩⟩
  rw [← after_append] at hstuck hf ⊢
  rcases (stuck_phase (as ++ as') v (.inl rfl) hd hstuck).2 with h | h | ⟨h, _⟩
  · exact absurd h (C78_not_left cs _ hd hf)
  · exact h
  · exact absurd h (by decide)

/-- **C78**: the same for `wait_all()` behind the block, whatever the exit mode. -/
theorem C78_wait_all_reported (exit : Name) (cs : List Call) (as as1 : List (Act V)) (v : V)
    (hv : ValidExit exit) (hd : Distinct cs) (hl : (after exit cs as).phase = .left) :
    ∃ n, ∀ as', Effective exit (after exit cs (as ++ .waitAll :: as1)) as' → as'.length ≤ n ∧
      ((∀ a, Progress a → step exit (run exit (after exit cs (as ++ .waitAll :: as1)) as') a =
          run exit (after exit cs (as ++ .waitAll :: as1)) as') →
        Failed (run exit (after exit cs (as ++ .waitAll :: as1)) as').log →
        ∃ c, (run exit (after exit cs (as ++ .waitAll :: as1)) as').phase = .raised c) := by
  refine ⟨work (after exit cs (as ++ .waitAll :: as1)),
    fun as' he => ⟨effective_length he, fun hstuck hf => ?_⟩⟩
  rw [← after_append] at hstuck hf ⊢
  have hsplit : as ++ Act.waitAll :: as1 ++ as' = as ++ Act.waitAll :: (as1 ++ as') := by simp
  rw [hsplit] at hstuck hf ⊢
  rcases (stuck_phase _ v hv hd hstuck).2 with h | h | ⟨_, h, _⟩
  · exact absurd h (C78_wait_all exit cs as _ hv hd hl hf)
  · exact h
  · rcases wait_inv as (as1 ++ as') hv hd hl with h1 | ⟨c, h1⟩ | h1
    · rw [h] at h1; cases h1
    · exact ⟨c, h1⟩
    · have h2 := not_allDone hv hd _ hf
      rw [h1.1] at h2
      cases h2

/-- **C78**, `exit="any"`: when no step is possible and the coroutines of some group have not raised,
the test is not waiting.  Missing: a coroutine of every group raises (`C78_any_violated`). -/
theorem C78_any_partial (cs : List Call) (as : List (Act V)) (v : V) (hd : Distinct cs)
    (hstuck : ∀ a, Progress a → step "any".toList (after "any".toList cs as) a =
      after "any".toList cs as)
    (g : Name) (hg : g ∈ groupNames cs)
    (hr : ∀ c ∈ group cs g, .raise c ∉ (after "any".toList cs as).log) :
    (after "any".toList cs as).phase = .left ∨ ∃ c, (after "any".toList cs as).phase = .raised c := by
  obtain ⟨hok, _⟩ := after_ok (V := V) (.inr (.inr rfl)) hd as
  rcases (stuck_phase as v (.inr (.inr rfl)) hd hstuck).2 with h | h | ⟨_, _, h⟩
  · exact .inl h
  · exact .inr h
  · exfalso
    unfold groupNames at hg
    rw [← groupsOf_eq] at hg
    obtain ⟨i, hi, rfl⟩ := List.getElem_of_mem hg
    have hlt : i < (after "any".toList cs as).tasks.length := by
      rw [hok.length]
      unfold table
      simpa using hi
    have he := h _ (List.getElem_mem hlt)
    cases hc : (after "any".toList cs as).tasks[i].err with
    | none => exact he hc
    | some c =>
      obtain ⟨g, h1, h2, h3⟩ := err_raise hok (List.getElem?_eq_getElem hlt) hc
      rw [List.getElem?_eq_getElem hi] at h1
      cases h1
      exact hr c h2 h3

/-- **C78**: the other groups are not disturbed: when no step is possible, all coroutines of a group in
which none raised have returned (whatever the exit mode and whatever the test does). -/
theorem C78_other_groups (exit : Name) (cs : List Call) (as : List (Act V)) (v : V)
    (hv : ValidExit exit) (hd : Distinct cs)
    (hstuck : ∀ a, Progress a → step exit (after exit cs as) a = after exit cs as)
    (g : Name) (hg : g ∈ groupNames cs)
    (hr : ∀ c ∈ group cs g, .raise c ∉ (after exit cs as).log) :
    ∀ c ∈ group cs g, ∃ v, .finish c v ∈ (after exit cs as).log := by
  obtain ⟨hok, _⟩ := after_ok (V := V) hv hd as
  unfold groupNames at hg
  rw [← groupsOf_eq] at hg
  obtain ⟨i, hi, rfl⟩ := List.getElem_of_mem hg
  have hlt : i < (after exit cs as).tasks.length := by
    rw [hok.length]
    unfold table
    simpa using hi
  have hdone : (after exit cs as).tasks[i].done = true := by
    rcases (stuck_phase as v hv hd hstuck).1 _ (List.getElem_mem hlt) with h | h
    · exact h
    · cases hc : (after exit cs as).tasks[i].err with
      | none => exact absurd hc h
      | some c =>
        obtain ⟨g, h1, h2, h3⟩ := err_raise hok (List.getElem?_eq_getElem hlt) hc
        rw [List.getElem?_eq_getElem hi] at h1
        cases h1
        exact absurd h3 (hr c h2)
  obtain ⟨g, h1, h2⟩ := done_group hok (List.getElem?_eq_getElem hlt) hdone
  rw [List.getElem?_eq_getElem hi] at h1
  cases h1
  exact h2

/-- **C78 is false** for `exit="any"` when a coroutine of every group raises: the test waits forever, and
the exception is not reported (the executor holds the tasks). -/
theorem C78_any_violated (as : List (Act V)) :
    let c : Call := ⟨⟨0, "f".toList, none⟩, none, none, none⟩
    .raise 0 ∈ (after "any".toList [c] (.start 0 :: .raise 0 :: as)).log ∧
      (after "any".toList [c] (.start 0 :: .raise 0 :: as)).phase = .leaving := by
  intro c
  have : ∀ as : List (Act V), (after "any".toList [c] (.start 0 :: .raise 0 :: as)) =
      (after "any".toList [c] [.start 0, .raise 0]) := by
    intro as
    have hs : ∀ a, step "any".toList (after (V := V) "any".toList [c] [.start 0, .raise 0]) a =
        after "any".toList [c] [.start 0, .raise 0] := by
      have h0 : after (V := V) "any".toList [c] [.start 0, .raise 0] =
          ⟨[("f".toList, [⟨⟨0, "f".toList, none⟩, none, none⟩])], [⟨[], none, [], false, some 0⟩], [],
            false, .leaving, [.start 0, .raise 0]⟩ := rfl
      rw [h0]
      intro a
      cases a with
      | start i => cases i <;> rfl
      | finish i v => cases i <;> rfl
      | raise i => cases i <;> rfl
      | complete i => cases i <;> rfl
      | _ => rfl
    have : ∀ as : List (Act V),
        run "any".toList (after (V := V) "any".toList [c] [.start 0, .raise 0]) as =
          after "any".toList [c] [.start 0, .raise 0] := by
      intro as
      induction as with
      | nil => rfl
      | cons a as ih => rw [run_cons, hs, ih]
    rw [← this as, ← after_append]
    rfl
  rw [this]
  exact ⟨show Ev.raise 0 ∈ ([.start 0, .raise 0] : List (Ev V)) by simp, rfl⟩

/-! ### Witnesses -/

/-- The second coroutine of the first group of `demo` raises; the other group returns. -/
def badSched : List (Act Nat) :=
  [.start 1, .start 0, .finish 0 70, .start 0, .raise 0, .finish 1 71, .complete 1]

/-- `C78_reported`, `C78_first`: the exception of the first group. -/
example : (after "all".toList demo (badSched ++ [.proceed])).phase = .raised 2 ∧
    (after "all".toList demo badSched).phase = .leaving ∧
    groupNames demo = ["bus.write".toList, "w".toList] ∧
    Failed (after "all".toList demo badSched).log := by
  refine ⟨by decide +kernel, by decide +kernel, by decide +kernel, 2, ?_⟩
  have : Ev.raise 2 ∈ (after "all".toList demo badSched).log := by decide +kernel
  exact this

/-- `C78_rest_of_group`: the first of two raises. -/
example : group demo "bus.write".toList = [] ++ 0 :: [2] ∧
    .raise 0 ∈ (after "all".toList demo ([.start 0, .raise 0, .start 0] : List (Act Nat))).log ∧
    (after "all".toList demo ([.start 0, .raise 0, .start 0] : List (Act Nat))).log =
      [.start 0, .raise 0] := by
  decide +kernel

/-- `C78_wait_all`, `C78_any_partial`: the block is left when the other group has returned, and
`wait_all()` raises. -/
example : (after "any".toList demo (badSched ++ [.proceed])).phase = .left ∧
    (after "any".toList demo (badSched ++ [.proceed, .waitAll])).phase = .waiting ∧
    (after "any".toList demo (badSched ++ [.proceed, .waitAll, .proceed])).phase = .raised 2 := by
  decide +kernel

end Toffee.Executor
