import Verif.Lemmas.Driver

/-! Calls of driver methods (`toffee/_base_agent.py`, `toffee/_compare.py`): C21, C22, C23. -/

namespace Toffee.Driver

variable {A D R : Type}

/-! ### Specification -/

/-- On which side of the driver method a hook belongs: where the executor's `sche_order` says, and
where the hook's own says otherwise. -/
def RunsFirst (o : Option Name) (h : Hook) : Prop :=
  if o = some "model_first".toList then True
  else if o = some "dut_first".toList then False
  else h.first = true

instance (o : Option Name) (h : Hook) : Decidable (RunsFirst o h) := by
  unfold RunsFirst
  exact inferInstance

/-- The hooks of a model. -/
def hooksOfModel (i : Info) : List Hook :=
  (match i.driverHook with
    | some h => [h]
    | none => []) ++ i.agentHooks

/-- The hooks of all models. -/
def hooksOf (infos : List Info) : List Hook := (infos.map hooksOfModel).flatten

/-- The models that provide no port for the method. -/
def portless (infos : List Info) : List Info :=
  infos.filter fun i => i.driverPort.isNone && i.agentPorts.isEmpty

/-- A whole call: the hooks `e1` run, the method runs and returns `d`, the hooks `e2` run, the results
are compared. -/
def whole (c : Nat) (args : A) (e1 : List (Hook × Option R)) (d : D) (e2 : List (Hook × Option R))
    (ok : Bool) : List (Ev A D R) :=
  (e1.map fun x => .exec c x.1 args x.2) ++ .bodyStart c :: .bodyEnd c d ::
    (e2.map fun x => .exec c x.1 args x.2) ++ [.checked c ok]

/-- The hooks `hs` are exactly the hooks of `e1` and `e2`, each once, those that run first in `e1`. -/
def Sides (o : Option Name) (hs : List Hook) (e1 e2 : List (Hook × Option R)) : Prop :=
  (e1.map Prod.fst).Perm (hs.filter fun h => decide (RunsFirst o h)) ∧
  (e2.map Prod.fst).Perm (hs.filter fun h => !decide (RunsFirst o h))

/-- The setting that a call should have: what was given to the executor, nothing for direct calls. -/
def given (x : Option Setting) : Setting := x.getD ⟨none, none⟩

/-- The priority that a hook should have. -/
def wanted (x : Setting) (h : Hook) : Int :=
  match x.prio with
  | some p => p
  | none => h.prio

/-- Each driver method is called only when all its calls so far are over, with equal results. -/
def Serial (drv : Nat → Drv D R) : St A D R → List (Act A D R) → Prop
  | _, [] => True
  | s, a :: as => (∀ d args x, a = .invoke d args x →
      ∀ k ∈ s.calls, k.drv = d → k.stage = .done true) ∧ Serial drv (step drv s a) as

/-! ### Lemmas -/

theorem goesFirst_iff (o : Option Name) (h : Hook) : goesFirst o h = decide (RunsFirst o h) := by
  have hne : ("dut_first".toList) ≠ "model_first".toList := by decide
  rw [Bool.eq_iff_iff, decide_eq_true_iff]
  unfold goesFirst RunsFirst
  generalize "dut_first".toList = a at hne
  generalize "model_first".toList = b at hne
  by_cases h1 : o = some b
  · simp [h1]
  · by_cases h2 : o = some a
    · simp [h2, hne]
    · simp [h1, h2]

theorem hooksOfModel_eq (i : Info) : i.hooks = hooksOfModel i := by
  unfold Info.hooks hooksOfModel
  cases i.driverHook <;> rfl

theorem hasPort_eq (i : Info) : i.hasPort = !(i.driverPort.isNone && i.agentPorts.isEmpty) := by
  unfold Info.hasPort
  cases i.driverPort <;> simp

theorem firstHooks_eq (o : Option Name) (infos : List Info) :
    firstHooks o infos = (hooksOf (portless infos)).filter fun h => decide (RunsFirst o h) := by
  unfold firstHooks hooksOf portless
  induction infos with
  | nil => rfl
  | cons i is ih =>
    rw [List.flatMap_cons, ih, hasPort_eq, List.filter_cons]
    have : goesFirst o = fun h => decide (RunsFirst o h) := funext (goesFirst_iff o)
    cases i.driverPort.isNone && i.agentPorts.isEmpty
    · simp
    · simp [hooksOfModel_eq, this]

theorem laterHooks_perm (o : Option Name) (infos : List Info) : (laterHooks o infos).Perm
    ((hooksOf (portless infos)).filter fun h => !decide (RunsFirst o h)) := by
  have hg : (fun h => !goesFirst o h) = fun h => !decide (RunsFirst o h) :=
    funext fun h => by rw [goesFirst_iff]
  unfold laterHooks hooksOf portless
  rw [hg]
  induction infos with
  | nil => exact List.Perm.refl _
  | cons i is ih =>
    rw [List.flatMap_cons, List.flatMap_cons, hasPort_eq, List.filter_cons]
    cases hb : i.driverPort.isNone && i.agentPorts.isEmpty
    · simpa using ih
    · simp only [Bool.not_true, Bool.false_eq_true, if_false, if_true, List.map_cons,
        List.flatten_cons, List.filter_append, ← hooksOfModel_eq, Info.hooks]
      have := ih
      refine List.Perm.trans ?_ (ih.append_left _)
      generalize List.flatMap _ is = a
      generalize List.flatMap _ is = b
      rw [List.append_assoc, List.append_assoc]
      refine List.Perm.append_left _ ?_
      rw [← List.append_assoc, ← List.append_assoc]
      exact List.Perm.append_right _ List.perm_append_comm

theorem sides_of {o : Option Name} {infos : List Info} {e1 e2 : List (Hook × Option R)}
    (h1 : (e1.map Prod.fst).Perm (firstHooks o infos))
    (h2 : (e2.map Prod.fst).Perm (laterHooks o infos)) :
    Sides o (hooksOf (portless infos)) e1 e2 :=
  ⟨by rw [← firstHooks_eq]; exact h1, h2.trans (laterHooks_perm o infos)⟩

theorem whole_eq (c : Nat) (args : A) (e1 : List (Hook × Option R)) (d : D)
    (e2 : List (Hook × Option R)) (ok : Bool) :
    whole c args e1 d e2 ok =
      execs c args e1 ++ [.bodyStart c, .bodyEnd c d] ++ execs c args e2 ++ [.checked c ok] := by
  simp [whole, execs]

theorem inv_run (drv : Nat → Drv D R) {P : Option Setting → Option Name → Prop}
    (hP : ∀ (s : St A D R) d x, P x (effective s d x).order) (as : List (Act A D R))
    {s : St A D R} (h : Inv drv P s) : Inv drv P (run drv s as) := by
  induction as generalizing s with
  | nil => exact h
  | cons a as ih => exact ih (inv_step drv h a fun d _ x _ => hP s d x)

/-- The order of a call by the executor is the one given to it. -/
def ExecOrder (x : Option Setting) (o : Option Name) : Prop := ∀ st, x = some st → o = st.order

theorem inv_any (drv : Nat → Drv D R) (as : List (Act A D R)) :
    Inv drv ExecOrder (run drv (init : St A D R) as) := by
  refine inv_run drv ?_ as (inv_init drv _)
  intro s d x st hx
  subst hx
  rfl

/-- The history of a call with what has not happened yet. -/
theorem stageOk_prefix [Nonempty D] {x : Drv D R} {o : Option Name} {c : Nat} {k : Call A D R}
    {pd : List Hook} {pr : List (Ev A D R)} (h : StageOk x o c k pd pr) :
    ∃ e1 d e2 ok, pr <+: whole c k.args e1 d e2 ok ∧ Sides o (hooksOf (portless x.infos)) e1 e2 := by
  obtain ⟨d0⟩ := ‹Nonempty D›
  have key : ∀ l : List Hook, (l.map fun h => (h, (none : Option R))).map Prod.fst = l := by
    intro l
    rw [List.map_map]
    exact List.map_id _
  have hl := key (laterHooks o x.infos)
  unfold StageOk at h
  cases hs : k.stage with
  | waiting later =>
    simp only [hs] at h
    obtain ⟨_, e1, h1, h2, _⟩ := h
    refine ⟨e1 ++ pd.map (fun h => (h, none)), d0,
      (laterHooks o x.infos).map (fun h => (h, none)), true, ?_, sides_of ?_ (by rw [hl])⟩
    · rw [h1, whole_eq, execs_append]
      simp only [List.append_assoc]
      exact List.prefix_append _ _
    · rw [List.map_append, key]
      exact h2
  | body later =>
    simp only [hs] at h
    obtain ⟨_, _, e1, h1, h2, _⟩ := h
    refine ⟨e1, d0, (laterHooks o x.infos).map (fun h => (h, none)), true, ?_,
      sides_of h2 (by rw [hl])⟩
    rw [h1, whole_eq, List.append_assoc, List.append_assoc, List.prefix_append_right_inj]
    exact ⟨_, rfl⟩
  | created later d =>
    simp only [hs] at h
    obtain ⟨_, _, e1, h1, h2, _⟩ := h
    refine ⟨e1, d, (laterHooks o x.infos).map (fun h => (h, none)), true, ?_,
      sides_of h2 (by rw [hl])⟩
    rw [h1, whole_eq, List.append_assoc]
    exact List.prefix_append _ _
  | checking d =>
    simp only [hs] at h
    obtain ⟨e1, e2, h1, h2, h3, _⟩ := h
    refine ⟨e1, d, e2 ++ pd.map (fun h => (h, none)), true, ?_, sides_of h2 ?_⟩
    · rw [h1, whole_eq, execs_append]
      simp only [List.append_assoc, List.prefix_append_right_inj]
      exact List.prefix_append _ _
    · rw [List.map_append, key]
      exact h3
  | done ok =>
    simp only [hs] at h
    obtain ⟨_, e1, e2, d, h1, h2, h3, _⟩ := h
    exact ⟨e1, d, e2, ok, by rw [h1, whole_eq]; exact List.prefix_refl _, sides_of h2 h3⟩

theorem mem_proj {c : Nat} {e : Ev A D R} {log : List (Ev A D R)} (h : e ∈ log)
    (hm : e.main = true) (hc : e.call = c) : e ∈ proj c log := by
  unfold proj
  rw [List.mem_filter]
  exact ⟨h, by simp [hm, hc]⟩

theorem of_mem_proj {c : Nat} {e : Ev A D R} {log : List (Ev A D R)} (h : e ∈ proj c log) :
    e ∈ log := (List.mem_filter.1 h).1

/-- After the comparison the call is whole. -/
theorem stageOk_checked {x : Drv D R} {o : Option Name} {c : Nat} {k : Call A D R}
    {pd : List Hook} {pr : List (Ev A D R)} (h : StageOk x o c k pd pr) {ok : Bool}
    (hm : .checked c ok ∈ pr) :
    k.stage = .done ok ∧ ∃ e1 d e2, pr = whole c k.args e1 d e2 ok ∧
      Sides o (hooksOf (portless x.infos)) e1 e2 ∧
      ok = compareAll x.cmp d ((e1 ++ e2).map Prod.snd) := by
  unfold StageOk at h
  cases hs : k.stage with
  | waiting later =>
    simp only [hs] at h
    obtain ⟨_, e1, h1, _⟩ := h
    rw [h1] at hm
    simp [execs] at hm
  | body later =>
    simp only [hs] at h
    obtain ⟨_, _, e1, h1, h2, _⟩ := h
    rw [h1] at hm
    simp [execs] at hm
  | created later d =>
    simp only [hs] at h
    obtain ⟨_, _, e1, h1, h2, _⟩ := h
    rw [h1] at hm
    simp [execs] at hm
  | checking d =>
    simp only [hs] at h
    obtain ⟨e1, e2, h1, h2, h3, _⟩ := h
    rw [h1] at hm
    simp [execs] at hm
  | done ok' =>
    simp only [hs] at h
    obtain ⟨_, e1, e2, d, h1, h2, h3, h4⟩ := h
    have : ok = ok' := by
      rw [h1] at hm
      simpa [execs] using hm
    subst this
    exact ⟨rfl, e1, d, e2, by rw [h1, whole_eq], sides_of h2 h3, h4⟩

theorem compareAll_iff (cmp : D → R → Bool) (d : D) (rs : List (Option R)) :
    compareAll cmp d rs = true ↔ ∀ v, some v ∈ rs → cmp d v = true := by
  induction rs with
  | nil => simp [compareAll]
  | cons r rs ih =>
    cases r with
    | none => simp [compareAll, ih]
    | some v =>
      simp only [compareAll]
      by_cases h : cmp d v = true
      · rw [if_pos h, ih]
        constructor
        · intro h1 w hw
          rcases List.mem_cons.1 hw with hw | hw
          · cases hw
            exact h
          · exact h1 w hw
        · intro h1 w hw
          exact h1 w (List.mem_cons_of_mem _ hw)
      · rw [if_neg h]
        constructor
        · intro h1
          cases h1
        · intro h1
          exact absurd (h1 v (List.mem_cons_self ..)) h

theorem invoked_call {drv : Nat → Drv D R} {P : Option Setting → Option Name → Prop} {s : St A D R}
    (h : Inv drv P s) {c d : Nat} {a : A} {x : Option Setting} (hm : .invoke c d a x ∈ s.log) :
    ∃ k o, s.calls[c]? = some k ∧ k.drv = d ∧ k.args = a ∧ P x o ∧
      StageOk (drv d) o c k (pend c s.pending) (proj c s.log) := by
  have hlt : c < s.calls.length := h.log _ hm
  obtain ⟨x', o, h1, h2, h3⟩ := h.calls c _ (List.getElem?_eq_getElem hlt)
  obtain ⟨e1, e2, e3⟩ := h.invoked _ _ _ _ _ _ _ hm h1
  refine ⟨_, o, List.getElem?_eq_getElem hlt, e1.symm, e2.symm, ?_, ?_⟩
  · rw [e3]
    exact h2
  · rw [e1]
    exact h3

/-! ### C22 -/

/-- C22: in every run, what happened in a call so far is the beginning of a whole call in which every
hook of the models without ports runs exactly once, with the call's arguments, those that run first
before the driver method begins and the others after it has returned; a `sche_order` given to the
executor decides the sides. Missing: models with a port (`C22_ports_violated`). -/
theorem C22_sides_partial [Nonempty D] (drv : Nat → Drv D R) (as : List (Act A D R)) (c d : Nat) (a : A)
    (x : Option Setting) (h : .invoke c d a x ∈ (run drv init as).log) :
    ∃ o e1 r e2 ok, (∀ st, x = some st → o = st.order) ∧
      Sides o (hooksOf (portless (drv d).infos)) e1 e2 ∧
      proj c (run drv init as).log <+: whole c a e1 r e2 ok := by
  obtain ⟨k, o, _, _, h3, h4, h5⟩ := invoked_call (inv_any drv as) h
  obtain ⟨e1, r, e2, ok, h6, h7⟩ := stageOk_prefix h5
  rw [h3] at h6
  exact ⟨o, e1, r, e2, ok, h4, h7, h6⟩

/-- C22: when the background part of a call has compared the results, the whole call has happened:
every hook has run exactly once. Missing: models with a port. -/
theorem C22_whole_partial (drv : Nat → Drv D R) (as : List (Act A D R)) (c d : Nat) (a : A)
    (x : Option Setting) (ok : Bool) (h : .invoke c d a x ∈ (run drv init as).log)
    (hd : .checked c ok ∈ (run drv init as).log) :
    ∃ o e1 r e2, (∀ st, x = some st → o = st.order) ∧
      Sides o (hooksOf (portless (drv d).infos)) e1 e2 ∧
      proj c (run drv init as).log = whole c a e1 r e2 ok := by
  obtain ⟨k, o, _, _, h3, h4, h5⟩ := invoked_call (inv_any drv as) h
  obtain ⟨_, e1, r, e2, h6, h7, _⟩ := stageOk_checked h5 (mem_proj hd rfl rfl)
  rw [h3] at h6
  exact ⟨o, e1, r, e2, h4, h7, h6⟩

/-! ### C23 -/

/-- C23: the comparison of a call succeeds if and only if every result that is not `None` of a hook of
this call compares equal with what the driver method returned. -/
theorem C23_compare (drv : Nat → Drv D R) (as : List (Act A D R)) (c d : Nat) (a : A)
    (x : Option Setting) (r : D) (ok : Bool) (h : .invoke c d a x ∈ (run drv init as).log)
    (hr : .bodyEnd c r ∈ (run drv init as).log) (hd : .checked c ok ∈ (run drv init as).log) :
    ok = true ↔ ∀ hk a' v, .exec c hk a' (some v) ∈ (run drv init as).log → (drv d).cmp r v = true := by
  obtain ⟨k, o, _, _, h3, h4, h5⟩ := invoked_call (inv_any drv as) h
  obtain ⟨_, e1, r', e2, h6, h7, h8⟩ := stageOk_checked h5 (mem_proj hd rfl rfl)
  have hrr : r = r' := by
    have := mem_proj (c := c) hr rfl rfl
    rw [h6, whole_eq] at this
    simpa [execs] using this
  subst hrr
  rw [h8, compareAll_iff]
  constructor
  · intro h9 hk a' v hm
    refine h9 v ?_
    have := mem_proj (c := c) hm rfl rfl
    rw [h6, whole_eq] at this
    simp only [execs, List.mem_append, List.mem_map, List.mem_cons, List.not_mem_nil, or_false,
      reduceCtorEq, Ev.exec.injEq, true_and] at this
    rw [List.mem_map]
    rcases this with (⟨y, hy, _, _, h10⟩ | ⟨y, hy, _, _, h10⟩)
    · exact ⟨y, List.mem_append_left _ hy, h10⟩
    · exact ⟨y, List.mem_append_right _ hy, h10⟩
  · intro h9 v hv
    rw [List.mem_map] at hv
    obtain ⟨y, hy, hv⟩ := hv
    refine h9 y.1 k.args v (of_mem_proj (c := c) ?_)
    rw [h6, whole_eq]
    simp only [execs, List.mem_append, List.mem_map, List.mem_cons, List.not_mem_nil, or_false,
      reduceCtorEq, Ev.exec.injEq, true_and]
    rcases List.mem_append.1 hy with hy | hy
    · exact .inl ⟨y, hy, rfl, hv⟩
    · exact .inr ⟨y, hy, rfl, hv⟩

/-! ### C21 -/

theorem wanted_eq (p : Option Int) (o : Option Name) (h : Hook) : prioOf p h = wanted ⟨p, o⟩ h := by
  cases p <;> rfl

theorem prioOf_eq (x : Setting) (h : Hook) : prioOf x.prio h = wanted x h := by
  cases x
  exact wanted_eq ..

theorem not_first_of_later {o : Option Name} {infos : List Info} {h : Hook}
    (hm : h ∈ laterHooks o infos) : ¬ RunsFirst o h := by
  have := (laterHooks_perm o infos).mem_iff.1 hm
  rw [List.mem_filter] at this
  simpa using this.2

theorem run_append (drv : Nat → Drv D R) (s : St A D R) (as bs : List (Act A D R)) :
    run drv s (as ++ bs) = run drv (run drv s as) bs := List.foldl_append

/-- The events of a step other than a call. -/
theorem step_request {drv : Nat → Drv D R} {s : St A D R} {a : Act A D R} {c : Nat} {h : Hook} {p : Int}
    (hm : .request c h p ∈ (step drv s a).log) : .request c h p ∈ s.log ∨
      (∃ d args x, a = .invoke d args x ∧ c = s.calls.length ∧ p = prioOf (effective s d x).prio h) ∨
      ∃ k later r, s.calls[c]? = some k ∧ k.stage = .created later r ∧ h ∈ later ∧
        p = prioOf (s.set k.drv).prio h := by
  cases a with
  | invoke d args x =>
    obtain ⟨_, _, _, h4⟩ := invoke_eq drv s d args x
    rw [h4] at hm
    simp only [List.mem_append, List.mem_cons, List.mem_map, reduceCtorEq, false_or, and_false,
      exists_false, Ev.request.injEq] at hm
    rcases hm with hm | ⟨y, _, hc, rfl, hp⟩
    · exact .inl hm
    · exact .inr (.inl ⟨d, args, x, rfl, hc.symm, hp.symm⟩)
  | callbacks ret =>
    obtain ⟨_, h2, _⟩ := foldl_runReq ret (Priority.sorted s.pending) s
    have hm' : .request c h p ∈ ((Priority.sorted s.pending).foldl (runReq ret) s).log := hm
    rw [h2] at hm'
    simp at hm'
    exact .inl hm'
  | proceed c' =>
    simp only [step] at hm
    split at hm
    · split at hm
      · simp only [setStage, List.mem_append, List.mem_singleton, reduceCtorEq, or_false] at hm
        exact .inl hm
      · exact .inl hm
    · exact .inl hm
  | bodyEnd c' r =>
    simp only [step] at hm
    split at hm
    · simp only [setStage, List.mem_append, List.mem_singleton, reduceCtorEq, or_false] at hm
      exact .inl hm
    · exact .inl hm
  | background c' =>
    simp only [step] at hm
    split at hm
    · rename_i dr args later r rs hk
      simp only [setStage, request, List.append_nil, List.mem_append, List.mem_map,
        Ev.request.injEq] at hm
      rcases hm with hm | ⟨y, hy, rfl, rfl, hp⟩
      · exact .inl hm
      · exact .inr (.inr ⟨_, later, r, hk, rfl, hy, hp.symm⟩)
    · exact .inl hm
  | check c' =>
    simp only [step] at hm
    split at hm
    · split at hm
      · split at hm <;>
          simp only [setStage, setting, List.mem_append, List.mem_singleton, reduceCtorEq, or_false] at hm <;>
          exact .inl hm
      · exact .inl hm
    · exact .inl hm

theorem step_invoke {drv : Nat → Drv D R} {s : St A D R} {a : Act A D R} {c d : Nat} {args : A}
    {x : Option Setting} (hm : .invoke c d args x ∈ (step drv s a).log) :
    .invoke c d args x ∈ s.log ∨ (c = s.calls.length ∧ a = .invoke d args x) := by
  cases a with
  | invoke d' args' x' =>
    obtain ⟨_, _, _, h4⟩ := invoke_eq drv s d' args' x'
    rw [h4] at hm
    simp only [List.mem_append, List.mem_cons, List.mem_map, reduceCtorEq, and_false,
      exists_false, or_false, Ev.invoke.injEq] at hm
    rcases hm with hm | ⟨rfl, rfl, rfl, rfl⟩
    · exact .inl hm
    · exact .inr ⟨rfl, rfl⟩
  | callbacks ret =>
    obtain ⟨_, h2, _⟩ := foldl_runReq ret (Priority.sorted s.pending) s
    have hm' : .invoke c d args x ∈ ((Priority.sorted s.pending).foldl (runReq ret) s).log := hm
    rw [h2] at hm'
    simp at hm'
    exact .inl hm'
  | proceed c' =>
    simp only [step] at hm
    split at hm
    · split at hm
      · simp only [setStage, List.mem_append, List.mem_singleton, reduceCtorEq, or_false] at hm
        exact .inl hm
      · exact .inl hm
    · exact .inl hm
  | bodyEnd c' r =>
    simp only [step] at hm
    split at hm
    · simp only [setStage, List.mem_append, List.mem_singleton, reduceCtorEq, or_false] at hm
      exact .inl hm
    · exact .inl hm
  | background c' =>
    simp only [step] at hm
    split at hm
    · simp only [setStage, request, List.append_nil, List.mem_append, List.mem_map, reduceCtorEq,
        and_false, exists_false, or_false] at hm
      exact .inl hm
    · exact .inl hm
  | check c' =>
    simp only [step] at hm
    split at hm
    · split at hm
      · split at hm <;>
          simp only [setStage, setting, List.mem_append, List.mem_singleton, reduceCtorEq, or_false] at hm <;>
          exact .inl hm
      · exact .inl hm
    · exact .inl hm

/-- C21: whatever else happens, a call by the executor asks for the hooks that run first with exactly
the priority given for it (or the hook's own); by `C22_sides_partial` the order given for it is the one
used. Missing: the priorities of the hooks that run last, and direct calls (`C21_priority_violated`,
`C21_direct_violated`). -/
theorem C21_first_partial (drv : Nat → Drv D R) (as : List (Act A D R)) (c d : Nat) (a : A)
    (st : Setting) (h : Hook) (p : Int) (hi : .invoke c d a (some st) ∈ (run drv init as).log)
    (hr : .request c h p ∈ (run drv init as).log) (hf : RunsFirst st.order h) : p = wanted st h := by
  induction as using snoc_ind with
  | h0 => cases hr
  | h1 as act ih =>
    have hinv := inv_any drv as
    rw [run_append] at hi hr
    have hi' : .invoke c d a (some st) ∈ (run drv init as).log ∨
        (c = (run drv init as).calls.length ∧ act = .invoke d a (some st)) := step_invoke hi
    rcases step_request hr with hr' | ⟨d', args', x', rfl, hc, hp⟩ | ⟨k, later, r, hk, hs, hm, hp⟩
    · rcases hi' with hi' | ⟨hc, _⟩
      · exact ih hi' hr'
      · have := hinv.log _ hr'
        simp only [Ev.call] at this
        omega
    · rcases hi' with hi' | ⟨_, he⟩
      · have := hinv.log _ hi'
        simp only [Ev.call] at this
        omega
      · cases he
        rw [hp]
        exact prioOf_eq ..
    · rcases hi' with hi' | ⟨hc, _⟩
      · obtain ⟨k', o, h1, _, _, h4, h5⟩ := invoked_call hinv hi'
        rw [hk] at h1
        cases h1
        unfold StageOk at h5
        simp only [hs] at h5
        rw [h5.1, h4 st rfl] at hm
        exact absurd hf (not_first_of_later hm)
      · rw [List.getElem?_eq_some_iff] at hk
        have := hk.1
        omega

/-- What a serial run keeps. -/
structure SInv (s : St A D R) : Prop where
  free : ∀ d, (∀ k ∈ s.calls, k.drv = d → k.stage = .done true) → s.set d = ⟨none, none⟩
  active : ∀ (c : Nat) k, s.calls[c]? = some k → (∀ ok, k.stage ≠ .done ok) →
    ∃ x, .invoke c k.drv k.args x ∈ s.log ∧ s.set k.drv = given x
  one : ∀ (c c' : Nat) k k', s.calls[c]? = some k → s.calls[c']? = some k' → k.drv = k'.drv →
    (∀ ok, k.stage ≠ .done ok) → (∀ ok, k'.stage ≠ .done ok) → c = c'
  prios : ∀ c d a x h p, .invoke c d a x ∈ s.log → .request c h p ∈ s.log → p = wanted (given x) h

/-- The order of a call is the one given for it. -/
def GivenOrder (x : Option Setting) (o : Option Name) : Prop := o = (given x).order

theorem effective_given {s : St A D R} (h : SInv s) {d : Nat} {x : Option Setting}
    (hd : ∀ k ∈ s.calls, k.drv = d → k.stage = .done true) : effective s d x = given x := by
  cases x with
  | some x => rfl
  | none => exact h.free d hd

/-- The new requests of a serial step have the right priority. -/
theorem prios_step {drv : Nat → Drv D R} {P : Option Setting → Option Name → Prop} {s : St A D R}
    (hinv : Inv drv P s) (h : SInv s) {act : Act A D R}
    (hser : ∀ d args x, act = .invoke d args x → ∀ k ∈ s.calls, k.drv = d → k.stage = .done true)
    (c d : Nat) (a : A) (x : Option Setting) (hk : Hook) (p : Int)
    (hi : .invoke c d a x ∈ (step drv s act).log) (hr : .request c hk p ∈ (step drv s act).log) :
    p = wanted (given x) hk := by
  rcases step_request hr with hr' | ⟨d', args', x', rfl, hc, hp⟩ | ⟨k, later, r, hkk, hs, hm, hp⟩
  · rcases step_invoke hi with hi' | ⟨hc, _⟩
    · exact h.prios _ _ _ _ _ _ hi' hr'
    · have := hinv.log _ hr'
      simp only [Ev.call] at this
      omega
  · rcases step_invoke hi with hi' | ⟨_, he⟩
    · have := hinv.log _ hi'
      simp only [Ev.call] at this
      omega
    · cases he
      rw [hp, effective_given h (hser _ _ _ rfl)]
      exact prioOf_eq ..
  · rcases step_invoke hi with hi' | ⟨hc, _⟩
    · obtain ⟨x', h1, h2⟩ := h.active c k hkk (by rw [hs]; intro ok hok; cases hok)
      obtain ⟨_, _, rfl⟩ := hinv.invoked _ _ _ _ _ _ _ hi' h1
      rw [hp, h2]
      exact prioOf_eq ..
    · rw [List.getElem?_eq_some_iff] at hkk
      have := hkk.1
      omega

/-- A step of one call that is not over. -/
theorem sinv_setStage {s s' : St A D R} (h : SInv s) {c : Nat} {k : Call A D R}
    (hk : s.calls[c]? = some k) {st : Stage D} (ho : ∀ ok, k.stage ≠ .done ok)
    (hcalls : s'.calls = s.calls.modify c fun k => { k with stage := st })
    (hlog : ∀ e ∈ s.log, e ∈ s'.log)
    (hset : (s'.set = s.set ∧ st ≠ .done true) ∨
      ((st = .done true) ∧ s'.set = fun d => if d = k.drv then ⟨none, none⟩ else s.set d))
    (hprios : ∀ c d a x h p, .invoke c d a x ∈ s'.log → .request c h p ∈ s'.log →
      p = wanted (given x) h) : SInv s' := by
  have hlt : c < s.calls.length := by
    rw [List.getElem?_eq_some_iff] at hk
    exact hk.1
  have hget : ∀ i : Nat, s'.calls[i]? =
      s.calls[i]?.map fun k => if c = i then { k with stage := st } else k := by
    intro i
    rw [hcalls, List.getElem?_modify]
    by_cases hi : c = i <;> simp [hi]
  have hgc : s'.calls[c]? = some { k with stage := st } := by rw [hget, hk]; simp
  have hgo : ∀ i : Nat, i ≠ c → s'.calls[i]? = s.calls[i]? := by
    intro i hi
    rw [hget]
    cases s.calls[i]? <;> simp [Ne.symm hi]
  have hsetne : ∀ d, d ≠ k.drv → s'.set d = s.set d := by
    intro d hd
    rcases hset with ⟨h1, _⟩ | ⟨_, h1⟩
    · rw [h1]
    · rw [h1]
      simp [hd]
  refine ⟨?_, ?_, ?_, hprios⟩
  · intro d hd
    by_cases hkd : d = k.drv
    · subst hkd
      have := hd _ (List.mem_of_getElem? hgc) rfl
      rcases hset with ⟨_, h1⟩ | ⟨_, h1⟩
      · exact absurd this h1
      · rw [h1]
        simp
    · rw [hsetne d hkd]
      apply h.free
      intro k' hk' he
      obtain ⟨i, hi⟩ := List.getElem?_of_mem hk'
      have hic : i ≠ c := by
        rintro rfl
        rw [hk] at hi
        cases hi
        exact hkd he.symm
      rw [← hgo i hic] at hi
      exact hd k' (List.mem_of_getElem? hi) he
  · intro i k' hk' hn
    by_cases hi : i = c
    · subst hi
      rw [hgc] at hk'
      cases hk'
      obtain ⟨x, h1, h2⟩ := h.active i k hk ho
      refine ⟨x, hlog _ h1, ?_⟩
      rcases hset with ⟨h3, _⟩ | ⟨h3, _⟩
      · rw [h3]
        exact h2
      · exact absurd h3 (hn true)
    · rw [hgo i hi] at hk'
      obtain ⟨x, h1, h2⟩ := h.active i k' hk' hn
      refine ⟨x, hlog _ h1, ?_⟩
      rw [hsetne]
      · exact h2
      · intro he
        exact hi (h.one i c k' k hk' hk he hn ho)
  · intro i i' k1 k2 h1 h2 he hn1 hn2
    have key : ∀ (j : Nat) kj, s'.calls[j]? = some kj → (∀ ok, kj.stage ≠ .done ok) →
        ∃ kj', s.calls[j]? = some kj' ∧ kj'.drv = kj.drv ∧ ∀ ok, kj'.stage ≠ .done ok := by
      intro j kj hj hn
      by_cases hjc : j = c
      · subst hjc
        rw [hgc] at hj
        cases hj
        exact ⟨k, hk, rfl, ho⟩
      · rw [hgo j hjc] at hj
        exact ⟨kj, hj, rfl, hn⟩
    obtain ⟨k1', a1, b1, c1⟩ := key i k1 h1 hn1
    obtain ⟨k2', a2, b2, c2⟩ := key i' k2 h2 hn2
    exact h.one i i' k1' k2' a1 a2 (by rw [b1, b2, he]) c1 c2

theorem sinv_step (drv : Nat → Drv D R) {s : St A D R} (hinv : Inv drv GivenOrder s) (h : SInv s)
    (act : Act A D R)
    (hser : ∀ d args x, act = .invoke d args x → ∀ k ∈ s.calls, k.drv = d → k.stage = .done true) :
    SInv (step drv s act) := by
  have hpr := prios_step hinv h hser
  cases act with
  | invoke d args x =>
    have hd := hser d args x rfl
    obtain ⟨h1, h2, _, h4⟩ := invoke_eq drv s d args x
    rw [effective_given h hd] at h1 h2
    generalize step drv s (.invoke d args x) = s' at *
    have hold : ∀ (c : Nat) k, s'.calls[c]? = some k → (∀ ok, k.stage ≠ .done ok) →
        (c = s.calls.length ∧ k.drv = d ∧ k.args = args) ∨ (s.calls[c]? = some k ∧ k.drv ≠ d) := by
      intro c k hk hn
      rw [h2, getElem?_snoc] at hk
      by_cases hc : c = s.calls.length
      · rw [if_pos hc] at hk
        cases hk
        exact .inl ⟨hc, rfl, rfl⟩
      · rw [if_neg hc] at hk
        exact .inr ⟨hk, fun he => hn true (hd k (List.mem_of_getElem? hk) he)⟩
    refine ⟨?_, ?_, ?_, hpr⟩
    · intro d' hd'
      have hne : d' ≠ d := by
        rintro rfl
        have := hd' ⟨d', args, .waiting (laterHooks (given x).order (drv d').infos), []⟩
          (by rw [h2]; simp) rfl
        cases this
      rw [h1]
      simp only [hne, if_false]
      exact h.free d' fun k hk he => hd' k (by rw [h2]; exact List.mem_append_left _ hk) he
    · intro c k hk hn
      rcases hold c k hk hn with ⟨rfl, rfl, rfl⟩ | ⟨hk', hne⟩
      · refine ⟨x, by rw [h4]; simp, ?_⟩
        rw [h1]
        simp
      · obtain ⟨y, h5, h6⟩ := h.active c k hk' hn
        refine ⟨y, by rw [h4]; exact List.mem_append_left _ h5, ?_⟩
        rw [h1]
        simp only [hne, if_false]
        exact h6
    · intro c c' k k' hk hk' he hn hn'
      rcases hold c k hk hn with ⟨e1, e2, _⟩ | ⟨e1, e2⟩ <;>
        rcases hold c' k' hk' hn' with ⟨e3, e4, _⟩ | ⟨e3, e4⟩
      · omega
      · exact absurd (he ▸ e2) e4
      · exact absurd (he.symm ▸ e4) e2
      · exact h.one c c' k k' e1 e3 he hn hn'
  | callbacks ret =>
    obtain ⟨h1, h2, h3, h4⟩ := foldl_runReq ret (Priority.sorted s.pending) s
    have hset : (step drv s (.callbacks ret)).set = s.set := h1
    have hlog : (step drv s (.callbacks ret)).log = s.log ++ (Priority.sorted s.pending).map
      (fun r => .exec r.1.call r.1.hook r.1.args (ret r.1.call r.1.hook)) := h2
    have hcalls : ∀ c : Nat, (step drv s (.callbacks ret)).calls[c]? = s.calls[c]?.map fun k =>
      { k with results := k.results ++ (pend c (Priority.sorted s.pending)).map (ret c) } := h4
    generalize step drv s (.callbacks ret) = s' at *
    have key : ∀ (c : Nat) k, s'.calls[c]? = some k → ∃ k', s.calls[c]? = some k' ∧
        k'.drv = k.drv ∧ k'.args = k.args ∧ k'.stage = k.stage := by
      intro c k hk
      rw [hcalls, Option.map_eq_some_iff] at hk
      obtain ⟨k', e1, rfl⟩ := hk
      exact ⟨k', e1, rfl, rfl, rfl⟩
    refine ⟨?_, ?_, ?_, hpr⟩
    · intro d hd
      rw [hset]
      apply h.free
      intro k hk he
      obtain ⟨i, hi⟩ := List.getElem?_of_mem hk
      have := hcalls i
      rw [hi, Option.map_some] at this
      have h6 := hd _ (List.mem_of_getElem? this)
      exact h6 he
    · intro c k hk hn
      obtain ⟨k', e1, e2, e3, e4⟩ := key c k hk
      obtain ⟨x, e5, e6⟩ := h.active c k' e1 (by rw [e4]; exact hn)
      refine ⟨x, ?_, ?_⟩
      · rw [hlog, ← e2, ← e3]
        exact List.mem_append_left _ e5
      · rw [hset, ← e2]
        exact e6
    · intro c c' k k' hk hk' he hn hn'
      obtain ⟨k1, e1, e2, _, e4⟩ := key c k hk
      obtain ⟨k2, f1, f2, _, f4⟩ := key c' k' hk'
      exact h.one c c' k1 k2 e1 f1 (by rw [e2, f2, he]) (by rw [e4]; exact hn) (by rw [f4]; exact hn')
  | proceed c =>
    simp only [step] at hpr ⊢
    split
    · rename_i dr args later rs hk
      simp only [hk] at hpr
      split
      · rename_i hid
        simp only [hid] at hpr
        exact sinv_setStage h hk (by intro ok hok; cases hok) rfl
          (fun e he => List.mem_append_left _ he) (.inl ⟨rfl, by intro hok; cases hok⟩) hpr
      · exact h
    · exact h
  | bodyEnd c r =>
    simp only [step] at hpr ⊢
    split
    · rename_i dr args later rs hk
      simp only [hk] at hpr
      exact sinv_setStage h hk (by intro ok hok; cases hok) rfl
        (fun e he => List.mem_append_left _ he) (.inl ⟨rfl, by intro hok; cases hok⟩) hpr
    · exact h
  | background c =>
    simp only [step] at hpr ⊢
    split
    · rename_i dr args later d rs hk
      simp only [hk] at hpr
      exact sinv_setStage h hk (by intro ok hok; cases hok) rfl
        (fun e he => List.mem_append_left _ (List.mem_append_left _ he))
        (.inl ⟨rfl, by intro hok; cases hok⟩) hpr
    · exact h
  | check c =>
    simp only [step] at hpr ⊢
    split
    · rename_i dr args d rs hk
      simp only [hk] at hpr
      split
      · rename_i hid
        simp only [hid, if_true] at hpr
        split
        · rename_i hok
          rw [if_pos hok] at hpr
          refine sinv_setStage (st := .done (compareAll (drv dr).cmp d rs)) h hk
            (by intro ok hok; cases hok) rfl
            (fun e he => List.mem_append_left _ he) (.inr ⟨by rw [hok], rfl⟩) hpr
        · rename_i hok
          rw [if_neg hok] at hpr
          refine sinv_setStage (st := .done (compareAll (drv dr).cmp d rs)) h hk
            (by intro ok hok; cases hok) rfl
            (fun e he => List.mem_append_left _ he) (.inl ⟨rfl, ?_⟩) hpr
          intro he
          cases hb : compareAll (drv dr).cmp d rs
          · rw [hb] at he
            cases he
          · exact hok hb
      · exact h
    · exact h

theorem serial_run (drv : Nat → Drv D R) (as : List (Act A D R)) {s : St A D R}
    (h1 : Inv drv GivenOrder s) (h2 : SInv s) (hs : Serial drv s as) :
    Inv drv GivenOrder (run drv s as) ∧ SInv (run drv s as) := by
  induction as generalizing s with
  | nil => exact ⟨h1, h2⟩
  | cons a as ih =>
    refine ih (inv_step drv h1 a ?_) (sinv_step drv h1 h2 a hs.1) hs.2
    intro d args x ha
    show _ = _
    rw [effective_given h2 (hs.1 d args x ha)]

/-- C21: when each call of a driver method waits until the earlier calls of this method are over (and
their results were equal), every call uses exactly the setting given for it: the order decides the
sides, and all its hooks are asked for with its priority, or with their own. Missing: overlapping calls
of the same driver method, and calls after a mismatch (the three violations below). -/
theorem C21_serial_partial [Nonempty D] (drv : Nat → Drv D R) (as : List (Act A D R))
    (hs : Serial drv init as) (c d : Nat) (a : A) (x : Option Setting)
    (hi : .invoke c d a x ∈ (run drv init as).log) :
    (∀ h p, .request c h p ∈ (run drv init as).log → p = wanted (given x) h) ∧
    ∃ e1 r e2 ok, Sides (given x).order (hooksOf (portless (drv d).infos)) e1 e2 ∧
      proj c (run drv init as).log <+: whole c a e1 r e2 ok := by
  have h0 : SInv (init : St A D R) :=
    ⟨fun _ _ => rfl, by simp [init], by simp [init], by simp [init]⟩
  obtain ⟨h1, h2⟩ := serial_run drv as (inv_init drv _) h0 hs
  refine ⟨fun h p hr => h2.prios _ _ _ _ _ _ hi hr, ?_⟩
  obtain ⟨k, o, _, _, h3, h4, h5⟩ := invoked_call h1 hi
  obtain ⟨e1, r, e2, ok, h6, h7⟩ := stageOk_prefix h5
  rw [h3] at h6
  rw [h4] at h7
  exact ⟨e1, r, e2, ok, h7, h6⟩

/-! ### A call can always be finished -/

theorem finish_checking (drv : Nat → Drv D R) (s : St A D R) {c : Nat} {k : Call A D R} {r : D}
    (hk : s.calls[c]? = some k) (hs : k.stage = .checking r) :
    ∃ as k' ok, ((run drv s as).calls[c]? = some k' ∧ k'.stage = .done ok) ∧
      ∀ c' d, .bodyEnd c' d ∈ as → c' = c := by
  obtain ⟨_, _, _, h4⟩ := foldl_runReq (fun _ _ => none) (Priority.sorted s.pending) s
  have h5 : (step drv s (.callbacks fun _ _ => none)).calls[c]? = _ := h4 c
  have hp : idle (step drv s (.callbacks fun _ _ => none)) c = true := rfl
  rw [hk, Option.map_some] at h5
  obtain ⟨dr, args, stg, rs⟩ := k
  cases hs
  generalize hs' : step drv s (.callbacks fun _ _ => none) = s' at h5 hp
  refine ⟨[.callbacks fun _ _ => none, .check c], ?_⟩
  simp only [run, List.foldl_cons, List.foldl_nil, hs']
  simp only [step, h5, hp, if_true]
  split <;> simp [setStage, setting, h5]

theorem finish_created (drv : Nat → Drv D R) (s : St A D R) {c : Nat} {k : Call A D R}
    {later : List Hook} {r : D} (hk : s.calls[c]? = some k) (hs : k.stage = .created later r) :
    ∃ as k' ok, ((run drv s as).calls[c]? = some k' ∧ k'.stage = .done ok) ∧
      ∀ c' d, .bodyEnd c' d ∈ as → c' = c := by
  obtain ⟨dr, args, stg, rs⟩ := k
  cases hs
  have h1 : (step drv s (.background c)).calls[c]? = some ⟨dr, args, .checking r, rs⟩ := by
    simp only [step, hk]
    simp [setStage, request, hk]
  obtain ⟨as, h2⟩ := finish_checking drv _ h1 rfl
  obtain ⟨k', ok, h2, h3⟩ := h2
  exact ⟨.background c :: as, k', ok, h2, fun c' d h => h3 c' d (by simpa using h)⟩

theorem finish_body (drv : Nat → Drv D R) (s : St A D R) {c : Nat} {k : Call A D R}
    {later : List Hook} (r : D) (hk : s.calls[c]? = some k) (hs : k.stage = .body later) :
    ∃ as k' ok, ((run drv s as).calls[c]? = some k' ∧ k'.stage = .done ok) ∧
      ∀ c' d, .bodyEnd c' d ∈ as → c' = c := by
  obtain ⟨dr, args, stg, rs⟩ := k
  cases hs
  have h1 : (step drv s (.bodyEnd c r)).calls[c]? = some ⟨dr, args, .created later r, rs⟩ := by
    simp only [step, hk]
    simp [setStage, hk]
  obtain ⟨as, h2⟩ := finish_created drv _ h1 rfl
  obtain ⟨k', ok, h2, h3⟩ := h2
  refine ⟨.bodyEnd c r :: as, k', ok, h2, fun c' d h => ?_⟩
  rcases List.mem_cons.1 h with h | h
  · cases h
    rfl
  · exact h3 c' d h

theorem finish (drv : Nat → Drv D R) (s : St A D R) {c : Nat} {k : Call A D R} (r : D)
    (hk : s.calls[c]? = some k) :
    ∃ as k' ok, ((run drv s as).calls[c]? = some k' ∧ k'.stage = .done ok) ∧
      ∀ c' d, .bodyEnd c' d ∈ as → c' = c := by
  cases hs : k.stage with
  | waiting later =>
    obtain ⟨_, _, _, h4⟩ := foldl_runReq (fun _ _ => none) (Priority.sorted s.pending) s
    have h5 : (step drv s (.callbacks fun _ _ => none)).calls[c]? = _ := h4 c
    have hp : idle (step drv s (.callbacks fun _ _ => none)) c = true := rfl
    rw [hk, Option.map_some] at h5
    obtain ⟨dr, args, stg, rs⟩ := k
    cases hs
    generalize hs' : step drv s (.callbacks fun _ _ => none) = s' at h5 hp
    have h1 : ∃ k', (step drv s' (.proceed c)).calls[c]? = some k' ∧ k'.stage = .body later := by
      simp only [step, h5, hp, if_true]
      simp [setStage, h5]
    obtain ⟨k', h1, h6⟩ := h1
    obtain ⟨as, h2⟩ := finish_body drv _ r h1 h6
    obtain ⟨k', ok, h2, h3⟩ := h2
    refine ⟨.callbacks (fun _ _ => none) :: .proceed c :: as, k', ok, ?_,
      fun c' d h => h3 c' d (by simpa using h)⟩
    simp only [run, List.foldl_cons, hs']
    exact h2
  | body later => exact finish_body drv s r hk hs
  | created later r => exact finish_created drv s hk hs
  | checking r => exact finish_checking drv s hk hs
  | done ok => exact ⟨[], k, ok, ⟨hk, hs⟩, by simp⟩

/-- C22: a call never gets stuck: from every reachable state there is a continuation in which the call
is compared (so that, by `C22_whole_partial`, all its hooks have run). -/
theorem C22_finishes [Nonempty D] (drv : Nat → Drv D R) (as : List (Act A D R)) (c d : Nat) (a : A)
    (x : Option Setting) (h : .invoke c d a x ∈ (run drv init as).log) :
    ∃ bs ok, .checked c ok ∈ (run drv init (as ++ bs)).log := by
  obtain ⟨r⟩ := ‹Nonempty D›
  obtain ⟨k, o, h1, _⟩ := invoked_call (inv_any drv as) h
  obtain ⟨bs, k', ok, ⟨h2, h3⟩, _⟩ := finish drv _ r h1
  refine ⟨bs, ok, ?_⟩
  rw [← run_append] at h2
  obtain ⟨x', o', _, _, h4⟩ := (inv_any drv (as ++ bs)).calls c k' h2
  unfold StageOk at h4
  simp only [h3] at h4
  obtain ⟨_, e1, e2, d', h5, _⟩ := h4
  refine of_mem_proj (c := c) ?_
  rw [h5]
  simp

/-! ### Violations -/

namespace Witness

def late : Hook := ⟨7, false, 50⟩
def early : Hook := ⟨8, true, 60⟩

/-- One driver with one model with a `dut_first` driver hook. -/
def drv (_ : Nat) : Drv Nat Nat := ⟨[⟨some late, [], none, []⟩], fun a b => a == b⟩

/-- Two calls in one group of an executor: the second is set up before the background part of the
first begins. -/
def overlapping : List (Act Unit Nat Nat) :=
  [.invoke 0 () (some ⟨some 1, none⟩), .proceed 0, .bodyEnd 0 3,
    .invoke 0 () (some ⟨some 2, none⟩), .background 0]

/-- A call by the executor and a direct call of the same driver method at the same time. -/
def direct : List (Act Unit Nat Nat) :=
  [.invoke 0 () (some ⟨some 1, some "model_first".toList⟩), .invoke 0 () none]

/-- A call by the executor with a mismatch, and then a direct call. -/
def mismatch : List (Act Unit Nat Nat) :=
  [.invoke 0 () (some ⟨some 1, none⟩), .proceed 0, .bodyEnd 0 3, .background 0,
    .callbacks (fun _ _ => some 4), .check 0, .invoke 0 () none, .proceed 1, .bodyEnd 1 3,
    .background 1]

/-- A model with a driver port and an agent hook for the same method. -/
def both (_ : Nat) : Drv Nat Nat := ⟨[⟨none, [early], some 0, []⟩], fun a b => a == b⟩

def call : List (Act Unit Nat Nat) :=
  [.invoke 0 () none, .callbacks (fun _ _ => some 3), .proceed 0, .bodyEnd 0 3, .background 0,
    .callbacks (fun _ _ => some 3), .check 0]

/-- Two models: one with hooks on both sides, one with an agent hook. -/
def two (_ : Nat) : Drv Nat Nat :=
  ⟨[⟨some late, [early], none, []⟩, ⟨none, [⟨9, true, 3⟩], none, []⟩], fun a b => a == b⟩

end Witness

/-- C21 fails: the second call of a group takes the priority of the first away from its `dut_first`
hooks. -/
theorem C21_priority_violated : ∃ (drv : Nat → Drv Nat Nat) (as : List (Act Unit Nat Nat)) (st : Setting)
    (h : Hook) (p : Int), .invoke 0 0 () (some st) ∈ (run drv init as).log ∧
      .request 0 h p ∈ (run drv init as).log ∧ p ≠ wanted st h :=
  ⟨Witness.drv, Witness.overlapping, ⟨some 1, none⟩, Witness.late, 2, by decide +kernel⟩

/-- C21 fails: a direct call uses the priority and the order that were given to the executor for
another call: the `dut_first` hook is asked for before the driver method begins. -/
theorem C21_direct_violated : ∃ (drv : Nat → Drv Nat Nat) (as : List (Act Unit Nat Nat)) (h : Hook)
    (p : Int), .invoke 1 0 () none ∈ (run drv init as).log ∧
      .request 1 h p ∈ (run drv init as).log ∧ p ≠ wanted (given none) h ∧ h.first = false ∧
      .bodyStart 1 ∉ (run drv init as).log :=
  ⟨Witness.drv, Witness.direct, Witness.late, 1, by decide +kernel⟩

/-- C21 fails: after a mismatch, a later direct call uses the setting of the failed call, although no
two calls overlap. -/
theorem C21_mismatch_violated : ∃ (drv : Nat → Drv Nat Nat) (as : List (Act Unit Nat Nat)) (h : Hook)
    (p : Int), .checked 0 false ∈ (run drv init as).log ∧ .invoke 1 0 () none ∈ (run drv init as).log ∧
      .request 1 h p ∈ (run drv init as).log ∧ p ≠ wanted (given none) h :=
  ⟨Witness.drv, Witness.mismatch, Witness.late, 1, by decide +kernel⟩

/-- C22 fails: when a model provides a port for the method, its hooks for the method are not called. -/
theorem C22_ports_violated : ∃ (drv : Nat → Drv Nat Nat) (as : List (Act Unit Nat Nat)) (h : Hook),
    h ∈ hooksOf (drv 0).infos ∧ .checked 0 true ∈ (run drv init as).log ∧
      ∀ a r, .exec 0 h a r ∉ (run drv init as).log := by
  refine ⟨Witness.both, Witness.call, Witness.early, by decide +kernel, by decide +kernel, ?_⟩
  intro a r h
  have : (run Witness.both init Witness.call).log =
      [.invoke 0 0 () none, .put 0 0, .bodyStart 0, .bodyEnd 0 3, .checked 0 true] := by decide +kernel
  rw [this] at h
  simp at h

/-! ### The hypotheses can be met -/

/-- A whole call with hooks on both sides and a mismatch in one of them. -/
example : (run Witness.two init Witness.call).log =
    [.invoke 0 0 () none, .request 0 Witness.early 60, .request 0 ⟨9, true, 3⟩ 3,
      .exec 0 ⟨9, true, 3⟩ () (some 3), .exec 0 Witness.early () (some 3),
      .bodyStart 0, .bodyEnd 0 3, .request 0 Witness.late 50, .exec 0 Witness.late () (some 3),
      .checked 0 true] := by decide +kernel

example : (hooksOf (portless (Witness.two 0).infos)).length = 3 := by decide +kernel

example : .checked 0 false ∈ (run Witness.drv init Witness.mismatch).log := by decide +kernel

/-- A serial run with two calls of the same driver. -/
example : Serial Witness.two init (Witness.call ++ [.invoke 0 () (some ⟨some 4, none⟩)]) := by
  simp only [Witness.call, List.cons_append, List.nil_append, Serial]
  refine ⟨?_, ?_, ?_, ?_, ?_, ?_, ?_, ?_, trivial⟩ <;> intro d args x h <;> cases h <;>
    decide +kernel

end Toffee.Driver
