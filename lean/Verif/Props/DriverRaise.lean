import Verif.Model.DriverRaise
import Verif.Props.Driver

/-! Driver methods that raise (`toffee/_base_agent.py` 106-194): C110. -/

namespace Toffee.Driver.Raise

variable {A D R : Type}

/-! ### Specification -/

/-- The number of the call that an observation belongs to. -/
def Obs.about : Obs A D R → Nat
  | .ev e => e.call
  | .raised c => c

/-- The events of driver calls in a list of observations. -/
def events (l : List (Obs A D R)) : List (Ev A D R) :=
  l.filterMap fun
    | .ev e => some e
    | .raised _ => none

/-! ### Lemmas -/

theorem events_append (a b : List (Obs A D R)) : events (a ++ b) = events a ++ events b :=
  List.filterMap_append ..

theorem events_map (l : List (Ev A D R)) : events (l.map Obs.ev) = l := by
  unfold events
  rw [List.filterMap_map]
  exact List.filterMap_some

/-- A step only adds to the log. -/
theorem step_log (drv : Nat → Drv D R) (s : St A D R) (a : Act A D R) :
    ∃ l, (step drv s a).log = s.log ++ l := by
  cases a with
  | invoke d args x =>
    obtain ⟨_, _, _, h4⟩ := invoke_eq drv s d args x
    exact ⟨_, h4⟩
  | callbacks ret =>
    obtain ⟨_, h2, _⟩ := foldl_runReq ret (Priority.sorted s.pending) s
    exact ⟨_, h2⟩
  | proceed c =>
    simp only [step]
    split
    · split
      · exact ⟨_, rfl⟩
      · exact ⟨[], (List.append_nil _).symm⟩
    · exact ⟨[], (List.append_nil _).symm⟩
  | bodyEnd c r =>
    simp only [step]
    split
    · exact ⟨_, rfl⟩
    · exact ⟨[], (List.append_nil _).symm⟩
  | background c =>
    simp only [step]
    split
    · exact ⟨_, List.append_assoc ..⟩
    · exact ⟨[], (List.append_nil _).symm⟩
  | check c =>
    simp only [step]
    split
    · split
      · split
        · exact ⟨_, rfl⟩
        · exact ⟨_, rfl⟩
      · exact ⟨[], (List.append_nil _).symm⟩
    · exact ⟨[], (List.append_nil _).symm⟩

/-- The new events of a step are not about a call whose method is running, unless it returns. -/
theorem step_body {drv : Nat → Drv D R} {P : Option Setting → Option Name → Prop} {s : St A D R}
    (h : Inv drv P s) {c : Nat} {k : Call A D R} {later : List Hook} (hk : s.calls[c]? = some k)
    (hs : k.stage = .body later) {a : Act A D R} (ha : ∀ d, a ≠ .bodyEnd c d) :
    (∃ l, (step drv s a).log = s.log ++ l ∧ ∀ e ∈ l, e.call ≠ c) ∧
    ∃ k', (step drv s a).calls[c]? = some k' ∧ k'.stage = .body later := by
  obtain ⟨dr, args, stg, rs⟩ := k
  cases hs
  have hlt : c < s.calls.length := by
    rw [List.getElem?_eq_some_iff] at hk
    exact hk.1
  have hpd : ∀ r ∈ s.pending, r.1.call ≠ c := by
    intro r hr he
    obtain ⟨x, o, _, _, h3⟩ := h.calls c _ hk
    obtain ⟨_, h4, _⟩ := h3
    have : r.1.hook ∈ pend c s.pending := by
      unfold pend
      exact List.mem_map.2 ⟨r, List.mem_filter.2 ⟨hr, by simp [he]⟩, rfl⟩
    rw [h4] at this
    cases this
  have hself : (∃ l, s.log = s.log ++ l ∧ ∀ e ∈ l, Ev.call e ≠ c) ∧
      ∃ k', s.calls[c]? = some k' ∧ k'.stage = .body later :=
    ⟨⟨[], (List.append_nil _).symm, by simp⟩, _, hk, rfl⟩
  have hmod : ∀ {c' : Nat} (f : Call A D R → Call A D R), c' ≠ c →
      ∃ k', (s.calls.modify c' f)[c]? = some k' ∧ k'.stage = .body later := by
    intro c' f hc
    rw [List.getElem?_modify, hk]
    exact ⟨_, rfl, by simp [hc]⟩
  cases a with
  | invoke d args' x =>
    obtain ⟨_, h2, _, h4⟩ := invoke_eq drv s d args' x
    refine ⟨⟨_, h4, ?_⟩, ?_⟩
    · intro e he
      have : e.call = s.calls.length := by
        rcases List.mem_append.1 he with he | he
        · rcases List.mem_cons.1 he with rfl | he
          · rfl
          · obtain ⟨y, _, rfl⟩ := List.mem_map.1 he
            rfl
        · obtain ⟨y, _, rfl⟩ := List.mem_map.1 he
          rfl
      omega
    · rw [h2, List.getElem?_append_left hlt, hk]
      exact ⟨_, rfl, rfl⟩
  | callbacks ret =>
    obtain ⟨_, h2, _, h4⟩ := foldl_runReq ret (Priority.sorted s.pending) s
    refine ⟨⟨_, h2, ?_⟩, ?_⟩
    · intro e he
      obtain ⟨r, hr, rfl⟩ := List.mem_map.1 he
      exact hpd r ((Priority.sorted_perm s.pending).mem_iff.1 hr)
    · have := h4 c
      rw [hk] at this
      exact ⟨_, this, rfl⟩
  | proceed c' =>
    simp only [step]
    split
    · rename_i hk'
      split
      · have hc : c' ≠ c := by
          rintro rfl
          rw [hk] at hk'
          cases hk'
        exact ⟨⟨_, rfl, by simpa [Ev.call] using hc⟩, hmod _ hc⟩
      · exact hself
    · exact hself
  | bodyEnd c' r =>
    simp only [step]
    split
    · have hc : c' ≠ c := by
        rintro rfl
        exact ha r rfl
      exact ⟨⟨_, rfl, by simpa [Ev.call] using hc⟩, hmod _ hc⟩
    · exact hself
  | background c' =>
    simp only [step]
    split
    · rename_i hk'
      have hc : c' ≠ c := by
        rintro rfl
        rw [hk] at hk'
        cases hk'
      refine ⟨⟨_, List.append_assoc .., ?_⟩, hmod _ hc⟩
      intro e he
      rw [List.append_nil] at he
      obtain ⟨y, _, rfl⟩ := List.mem_map.1 he
      exact hc
    · exact hself
  | check c' =>
    simp only [step]
    split
    · rename_i hk'
      have hc : c' ≠ c := by
        rintro rfl
        rw [hk] at hk'
        cases hk'
      split
      · split
        · exact ⟨⟨_, rfl, by simpa [Ev.call] using hc⟩, hmod _ hc⟩
        · exact ⟨⟨_, rfl, by simpa [Ev.call] using hc⟩, hmod _ hc⟩
      · exact hself
    · exact hself

/-- The actions that were not blocked. -/
def taken (drv : Nat → Drv D R) : StR A D R → List (ActR A D R) → List (Act A D R)
  | _, [] => []
  | s, .act a :: as =>
    if blocked s a then taken drv (stepR drv s (.act a)) as
    else a :: taken drv (stepR drv s (.act a)) as
  | s, .raises c :: as => taken drv (stepR drv s (.raises c)) as

theorem runR_base (drv : Nat → Drv D R) (as : List (ActR A D R)) (s : StR A D R) :
    (runR drv s as).base = run drv s.base (taken drv s as) := by
  induction as generalizing s with
  | nil => rfl
  | cons a as ih =>
    show (runR drv (stepR drv s a) as).base = _
    rw [ih]
    cases a with
    | act a =>
      rw [taken]
      by_cases hb : blocked s a = true
      · rw [if_pos hb]
        have : stepR drv s (.act a) = s := by simp only [stepR, if_pos hb]
        rw [this]
      · rw [if_neg hb]
        have : (stepR drv s (.act a)).base = step drv s.base a := by simp only [stepR, if_neg hb]
        rw [this]
        rfl
    | raises c =>
      rw [taken]
      have : (stepR drv s (.raises c)).base = s.base := by
        simp only [stepR]
        split <;> rfl
      rw [this]

/-- What every run keeps: the events are those of the drivers, and a call whose method has raised
stays where it is. -/
structure InvR (drv : Nat → Drv D R) (s : StR A D R) : Prop where
  inv : Inv drv ExecOrder s.base
  log : events s.log = s.base.log
  failed : ∀ c, .raised c ∈ s.log ↔ c ∈ s.failed
  calls : ∀ c ∈ s.failed, ∃ k later, s.base.calls[c]? = some k ∧ k.stage = .body later
  after : ∀ c pre post, s.log = pre ++ .raised c :: post → ∀ o ∈ post, Obs.about o ≠ c

theorem split_snoc {α : Type} {l : List α} {m pre post : List α} {x : α}
    (h : l ++ m = pre ++ x :: post) :
    (∃ post', l = pre ++ x :: post' ∧ post = post' ++ m) ∨
      ∃ pre', m = pre' ++ x :: post ∧ pre = l ++ pre' := by
  rcases List.append_eq_append_iff.1 h with ⟨a, h1, h2⟩ | ⟨a, h1, h2⟩
  · exact .inr ⟨a, h2, h1⟩
  · cases a with
    | nil => exact .inr ⟨[], by simpa using h2.symm, by simpa using h1.symm⟩
    | cons y a =>
      rw [List.cons_append, List.cons.injEq] at h2
      obtain ⟨rfl, h2⟩ := h2
      exact .inl ⟨a, h1, h2⟩

theorem invR_step (drv : Nat → Drv D R) {s : StR A D R} (h : InvR drv s) (a : ActR A D R) :
    InvR drv (stepR drv s a) := by
  cases a with
  | act a =>
    simp only [stepR]
    by_cases hb : blocked s a = true
    · rw [if_pos hb]
      exact h
    · rw [if_neg hb]
      obtain ⟨l, hl⟩ := step_log drv s.base a
      have hd : (step drv s.base a).log.drop s.base.log.length = l := by
        rw [hl, List.drop_left]
      rw [hd]
      have hne : ∀ c ∈ s.failed, ∀ d, a ≠ .bodyEnd c d := by
        rintro c hc d rfl
        exact hb (by simpa [blocked] using hc)
      refine ⟨?_, ?_, ?_, ?_, ?_⟩
      · refine inv_step drv h.inv a ?_
        rintro d args x - st rfl
        rfl
      · show events (s.log ++ l.map Obs.ev) = _
        rw [events_append, events_map, h.log, hl]
      · intro c
        refine Iff.trans ?_ (h.failed c)
        show Obs.raised c ∈ s.log ++ l.map Obs.ev ↔ _
        simp
      · intro c hc
        obtain ⟨k, later, h1, h2⟩ := h.calls c hc
        obtain ⟨_, k', h3, h4⟩ := step_body h.inv h1 h2 (hne c hc)
        exact ⟨k', later, h3, h4⟩
      · intro c pre post he o ho
        rcases split_snoc he with ⟨post', h1, rfl⟩ | ⟨pre', h1, _⟩
        · rcases List.mem_append.1 ho with ho | ho
          · exact h.after c pre post' h1 o ho
          · obtain ⟨e, hel, rfl⟩ := List.mem_map.1 ho
            have hc := (h.failed c).1 (by rw [h1]; simp)
            obtain ⟨k, later, h2, h3⟩ := h.calls c hc
            obtain ⟨⟨l', h4, h5⟩, _⟩ := step_body h.inv h2 h3 (hne c hc)
            have : l = l' := List.append_cancel_left (hl.symm.trans h4)
            exact h5 e (this ▸ hel)
        · have : Obs.raised c ∈ l.map Obs.ev := by rw [h1]; simp
          obtain ⟨e, _, he⟩ := List.mem_map.1 this
          cases he
  | raises c =>
    simp only [stepR]
    by_cases hr : running s c = true
    · rw [if_pos hr]
      have hk : (∃ k later, s.base.calls[c]? = some k ∧ k.stage = .body later) ∧ c ∉ s.failed := by
        unfold running at hr
        split at hr
        · rename_i hk
          exact ⟨⟨_, _, hk, rfl⟩, by simpa using hr⟩
        · cases hr
      refine ⟨h.inv, ?_, ?_, ?_, ?_⟩
      · show events (s.log ++ [.raised c]) = _
        rw [events_append, h.log]
        exact List.append_nil _
      · intro c'
        show Obs.raised c' ∈ s.log ++ [.raised c] ↔ c' ∈ c :: s.failed
        rw [List.mem_append, h.failed, List.mem_singleton, List.mem_cons, Obs.raised.injEq]
        exact or_comm
      · intro c' hc'
        rcases List.mem_cons.1 hc' with rfl | hc'
        · exact hk.1
        · exact h.calls c' hc'
      · intro c' pre post he o ho
        rcases split_snoc he with ⟨post', h1, rfl⟩ | ⟨pre', h1, _⟩
        · rcases List.mem_append.1 ho with ho | ho
          · exact h.after c' pre post' h1 o ho
          · cases List.mem_singleton.1 ho
            intro hcc
            exact hk.2 ((h.failed c).1 (by rw [h1]; simp only [Obs.about] at hcc; simp [hcc]))
        · have h2 := congrArg List.length h1
          simp only [List.length_cons, List.length_nil, List.length_append] at h2
          have : post = [] := List.length_eq_zero_iff.1 (by omega)
          subst this
          cases ho
    · rw [if_neg hr]
      exact h

theorem invR_run (drv : Nat → Drv D R) (as : List (ActR A D R)) {s : StR A D R} (h : InvR drv s) :
    InvR drv (runR drv s as) := by
  induction as generalizing s with
  | nil => exact h
  | cons a as ih => exact ih (invR_step drv h a)

theorem invR_init (drv : Nat → Drv D R) : InvR drv (initR : StR A D R) :=
  ⟨inv_init drv _, rfl, by simp [initR], by simp [initR], by simp [initR]⟩

/-- Steps that are not blocked. -/
theorem acts_base (drv : Nat → Drv D R) (as : List (Act A D R)) {s : StR A D R}
    (h : ∀ c d, .bodyEnd c d ∈ as → c ∉ s.failed) :
    (runR drv s (as.map .act)).base = run drv s.base as := by
  induction as generalizing s with
  | nil => rfl
  | cons a as ih =>
    have hb : ¬ blocked s a = true := by
      cases a with
      | bodyEnd c d => simpa [blocked] using h c d List.mem_cons_self
      | _ => simp [blocked]
    have h1 : (stepR drv s (.act a)).base = step drv s.base a := by simp only [stepR, if_neg hb]
    have h2 : (stepR drv s (.act a)).failed = s.failed := by simp only [stepR, if_neg hb]
    show (runR drv (stepR drv s (.act a)) (as.map .act)).base = run drv (step drv s.base a) as
    rw [ih, h1]
    intro c d hm
    rw [h2]
    exact h c d (List.mem_cons_of_mem _ hm)

/-! ### C110 -/

/-- C110: when the driver method of a call raises, exactly the hooks of the models without ports that
run first have run, once each and with the arguments of the call, then the method began, and nothing
else has happened in this call; and nothing ever happens in this call afterwards: no hook is asked for
or runs, nothing is compared.  Missing: models with a port (`C22_ports_violated`). -/
theorem C110_raises_partial (drv : Nat → Drv D R) (as : List (ActR A D R)) (c d : Nat) (a : A)
    (x : Option Setting) (hi : .ev (.invoke c d a x) ∈ (runR drv initR as).log)
    (pre post : List (Obs A D R)) (hr : (runR drv initR as).log = pre ++ .raised c :: post) :
    (∃ (o : Option Name) (e1 : List (Hook × Option R)), (∀ st, x = some st → o = st.order) ∧
      (e1.map Prod.fst).Perm
        ((hooksOf (portless (drv d).infos)).filter fun h => decide (RunsFirst o h)) ∧
      proj c (events pre) = (e1.map fun y => .exec c y.1 a y.2) ++ [.bodyStart c]) ∧
    ∀ o ∈ post, o.about ≠ c := by
  have h := invR_run drv as (invR_init drv)
  generalize runR drv initR as = s at *
  refine ⟨?_, h.after c pre post hr⟩
  have hi' : .invoke c d a x ∈ s.base.log := by
    rw [← h.log]
    exact List.mem_filterMap.2 ⟨_, hi, rfl⟩
  obtain ⟨k, o, h1, h2, h3, h4, h5⟩ := invoked_call h.inv hi'
  obtain ⟨k', later, h6, h7⟩ := h.calls c ((h.failed c).1 (by rw [hr]; simp))
  rw [h1] at h6
  cases h6
  unfold StageOk at h5
  simp only [h7] at h5
  obtain ⟨_, _, e1, h8, h9, _⟩ := h5
  refine ⟨o, e1, h4, by rw [← firstHooks_eq]; exact h9, ?_⟩
  rw [← h3]
  have : proj c s.base.log = proj c (events pre) := by
    rw [← h.log, hr, events_append, proj_append]
    have : proj c (events (.raised c :: post)) = [] := by
      apply proj_none
      intro e he _
      obtain ⟨ob, hob, hoe⟩ := List.mem_filterMap.1 he
      rcases List.mem_cons.1 hob with rfl | hob
      · cases hoe
      · cases ob with
        | raised c' => cases hoe
        | ev e' =>
          cases hoe
          exact h.after c pre post hr _ hob
    rw [this, List.append_nil]
  rw [← this]
  exact h8

/-- C110: the other calls do not notice: whatever methods raise, what is observed of the calls (apart
from the exceptions themselves) is observed in some run in which no method raises, so that C21, C22 and
C23 hold for the calls whose methods do not raise. -/
theorem C110_others (drv : Nat → Drv D R) (as : List (ActR A D R)) :
    ∃ bs, events (runR drv initR as).log = (run drv init bs).log ∧
      (runR drv initR as).base.set = (run drv init bs).set := by
  refine ⟨taken drv initR as, ?_, ?_⟩
  · rw [(invR_run drv as (invR_init drv)).log, runR_base]
    rfl
  · rw [runR_base]
    rfl

/-- C110: a call whose method has not raised can still be brought to its end, whatever other methods
have raised. -/
theorem C110_finishes [Nonempty D] (drv : Nat → Drv D R) (as : List (ActR A D R)) (c d : Nat) (a : A)
    (x : Option Setting) (hi : .ev (.invoke c d a x) ∈ (runR drv initR as).log)
    (hn : .raised c ∉ (runR drv initR as).log) :
    ∃ bs ok, .ev (.checked c ok) ∈ (runR drv initR (as ++ bs)).log := by
  obtain ⟨r⟩ := ‹Nonempty D›
  have h := invR_run drv as (invR_init drv)
  have hi' : .invoke c d a x ∈ (runR drv initR as).base.log := by
    rw [← h.log]
    exact List.mem_filterMap.2 ⟨_, hi, rfl⟩
  obtain ⟨k, o, h1, _⟩ := invoked_call h.inv hi'
  obtain ⟨bs, k', ok, ⟨h2, h3⟩, h4⟩ := finish drv _ r h1
  have hb : (runR drv (runR drv initR as) (bs.map .act)).base =
      run drv (runR drv initR as).base bs := by
    refine acts_base drv bs ?_
    intro c' d' hm
    rw [h4 c' d' hm, ← h.failed]
    exact hn
  have happ : runR drv initR (as ++ bs.map .act) = runR drv (runR drv initR as) (bs.map .act) :=
    List.foldl_append
  have h' := invR_run drv (as ++ bs.map .act) (invR_init (A := A) drv)
  refine ⟨bs.map .act, ok, ?_⟩
  rw [← hb, ← happ] at h2
  obtain ⟨x', o', _, _, h5⟩ := h'.inv.calls c k' h2
  unfold StageOk at h5
  simp only [h3] at h5
  obtain ⟨_, e1, e2, d', h6, _⟩ := h5
  have hm : .checked c ok ∈ events (runR drv initR (as ++ bs.map .act)).log := by
    rw [h'.log]
    refine of_mem_proj (c := c) ?_
    rw [h6]
    simp
  obtain ⟨ob, hob, hoe⟩ := List.mem_filterMap.1 hm
  cases ob with
  | raised c' => cases hoe
  | ev e =>
    cases hoe
    exact hob

namespace Witness

/-- A call by the executor whose method raises, and then a direct call of the same method. -/
def leftover : List (ActR Unit Nat Nat) :=
  [.act (.invoke 0 () (some ⟨some 1, some "model_first".toList⟩)),
    .act (.callbacks fun _ _ => some 3), .act (.proceed 0), .raises 0, .act (.invoke 0 () none)]

end Witness

/-- C110 fails in one respect: the priority and the order given to the executor for a call whose method
raises stay behind, and the next direct call uses them, although the two do not overlap: its
`dut_first` hook is asked for before the method begins, with the priority of the failed call. -/
theorem C110_setting_violated : ∃ (drv : Nat → Drv Nat Nat) (as : List (ActR Unit Nat Nat)) (h : Hook)
    (p : Int), .raised 0 ∈ (runR drv initR as).log ∧
      .ev (.invoke 1 0 () none) ∈ (runR drv initR as).log ∧
      .ev (.request 1 h p) ∈ (runR drv initR as).log ∧ p ≠ wanted (given none) h ∧ h.first = false ∧
      .ev (.bodyStart 1) ∉ (runR drv initR as).log :=
  ⟨Driver.Witness.drv, Witness.leftover, Driver.Witness.late, 1, by decide +kernel⟩

/-- The hypotheses of `C110_raises_partial` can be met: a call with hooks on both sides raises while
another one goes on. -/
example : (runR Driver.Witness.two initR
    ([.act (.invoke 0 () none), .act (.invoke 1 () none), .act (.callbacks fun _ _ => some 3),
      .act (.proceed 0), .act (.proceed 1), .raises 0, .act (.bodyEnd 0 5), .act (.bodyEnd 1 3)] :
        List (ActR Unit Nat Nat))).log =
    [.ev (.invoke 0 0 () none), .ev (.request 0 Driver.Witness.early 60),
      .ev (.request 0 ⟨9, true, 3⟩ 3), .ev (.invoke 1 1 () none),
      .ev (.request 1 Driver.Witness.early 60), .ev (.request 1 ⟨9, true, 3⟩ 3),
      .ev (.exec 0 ⟨9, true, 3⟩ () (some 3)), .ev (.exec 1 ⟨9, true, 3⟩ () (some 3)),
      .ev (.exec 0 Driver.Witness.early () (some 3)), .ev (.exec 1 Driver.Witness.early () (some 3)),
      .ev (.bodyStart 0), .ev (.bodyStart 1), .raised 0, .ev (.bodyEnd 1 3)] := by decide +kernel

end Toffee.Driver.Raise
