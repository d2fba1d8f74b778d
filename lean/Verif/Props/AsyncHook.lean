import Verif.Model.AsyncHook

/-! Hooks that are coroutine functions: C116. -/

namespace Toffee.AsyncHook

/-! ## Specification -/

/-- Whether a hook is to run before the method: the order given with the call, if any, decides; otherwise
the order given with the hook. -/
def first : Order → Hook → Bool
  | .unset, h => h.modelFirst
  | .modelFirst, _ => true
  | .dutFirst, _ => false

/-- The hooks of a model that a driver call has to inform: none if the model has a port for it. -/
def Info.hooks (i : Info) : List Hook :=
  if i.ports = [] then i.hook.toList ++ i.agentHooks else []

/-- What a model is told before the method runs. -/
def Info.before (o : Order) (i : Info) : List Effect :=
  i.ports.map .port ++ (i.hooks.filter (first o)).map (fun h => .hook h.id)

/-- What the models are told after the method has run: first the driver hooks, then the agent hooks. -/
def after (o : Order) (is : List Info) : List Effect :=
  ((is.flatMap fun i => if i.ports = [] then i.hook.toList.filter (fun h => !first o h) else []) ++
    is.flatMap fun i => if i.ports = [] then i.agentHooks.filter (fun h => !first o h) else []).map
    fun h => .hook h.id

/-- No hook is a coroutine function. -/
def Plain (is : List Info) : Prop := ∀ i ∈ is, ∀ h ∈ i.hooks, h.async = false

/-- Some hook that is to run before the method is a coroutine function. -/
def EarlyAsync (o : Order) (is : List Info) : Prop :=
  ∃ i ∈ is, ∃ h ∈ i.hooks, h.async = true ∧ first o h = true

/-! ## Lemmas -/

theorem early_first (o : Order) (h : Hook) : early o h = first o h := by
  obtain ⟨_, _, m⟩ := h
  cases o <;> cases m <;> rfl

def lateD (o : Order) (i : Info) : List Hook :=
  if i.ports = [] then i.hook.toList.filter (fun h => !first o h) else []

def lateA (o : Order) (i : Info) : List Hook :=
  if i.ports = [] then i.agentHooks.filter (fun h => !first o h) else []

theorem frontAgent_ok (o : Order) (hs : List Hook) (f : Front)
    (h : ∀ x ∈ hs, x.async = true → first o x = false) :
    frontAgent o f hs =
      (⟨f.log ++ (hs.filter (first o)).map (fun h => .hook h.id), f.lateDriver,
        f.lateAgent ++ hs.filter (fun h => !first o h)⟩, true) := by
  induction hs generalizing f with
  | nil => simp [frontAgent]
  | cons x xs ih =>
    have ih := fun f => ih f (fun y hy => h y (List.mem_cons_of_mem _ hy))
    have hx := h x List.mem_cons_self
    by_cases he : first o x = true
    · have : x.async = false := by
        cases ha : x.async with
        | false => rfl
        | true => rw [hx ha] at he; cases he
      simp [frontAgent, early_first, he, request, this, ih]
    · simp only [Bool.not_eq_true] at he
      simp [frontAgent, early_first, he, ih]

theorem frontAgent_bad (o : Order) (hs : List Hook) (f : Front)
    (h : ∃ x ∈ hs, x.async = true ∧ first o x = true) :
    ∃ f' l, frontAgent o f hs = (f', false) ∧ f'.log = f.log ++ l ∧
      ∀ e ∈ l, ∃ x ∈ hs, x.async = false ∧ e = .hook x.id := by
  induction hs generalizing f with
  | nil => obtain ⟨x, hx, _⟩ := h; cases hx
  | cons x xs ih =>
    by_cases he : first o x = true
    · cases ha : x.async with
      | true => exact ⟨f, [], by simp [frontAgent, early_first, he, request, ha], by simp, by simp⟩
      | false =>
        obtain ⟨y, hy, hya, hye⟩ := h
        have hy' : y ∈ xs := by
          rcases List.mem_cons.mp hy with rfl | h
          · rw [ha] at hya; cases hya
          · exact h
        obtain ⟨f', l, h1, h2, h3⟩ := ih { f with log := f.log ++ [.hook x.id] } ⟨y, hy', hya, hye⟩
        refine ⟨f', .hook x.id :: l, by simp [frontAgent, early_first, he, request, ha, h1], by simp [h2], ?_⟩
        intro e hm
        rcases List.mem_cons.mp hm with rfl | hm
        · exact ⟨x, List.mem_cons_self, ha, rfl⟩
        · obtain ⟨z, hz, hza⟩ := h3 e hm
          exact ⟨z, List.mem_cons_of_mem _ hz, hza⟩
    · obtain ⟨y, hy, hya, hye⟩ := h
      have hy' : y ∈ xs := by
        rcases List.mem_cons.mp hy with rfl | h
        · exact absurd hye he
        · exact h
      obtain ⟨f', l, h1, h2, h3⟩ := ih { f with lateAgent := f.lateAgent ++ [x] } ⟨y, hy', hya, hye⟩
      refine ⟨f', l, by simp [frontAgent, early_first, he, h1], by simp [h2], ?_⟩
      intro e hm
      obtain ⟨z, hz, hza⟩ := h3 e hm
      exact ⟨z, List.mem_cons_of_mem _ hz, hza⟩

theorem frontInfo_ok (o : Order) (i : Info) (f : Front)
    (h : ∀ x ∈ i.hooks, x.async = true → first o x = false) :
    frontInfo o f i = (⟨f.log ++ i.before o, f.lateDriver ++ lateD o i, f.lateAgent ++ lateA o i⟩, true) := by
  obtain ⟨ports, hook, agents⟩ := i
  cases ports with
  | cons p ps => simp [frontInfo, Info.before, Info.hooks, lateD, lateA]
  | nil =>
    have ha : ∀ x ∈ agents, x.async = true → first o x = false := fun x hx =>
      h x (by simp [Info.hooks, hx])
    cases hook with
    | none => simp [frontInfo, frontDriver, frontAgent_ok o agents f ha, Info.before, Info.hooks, lateD, lateA]
    | some d =>
      have hd : d.async = true → first o d = false := h d (by simp [Info.hooks])
      by_cases he : first o d = true
      · have : d.async = false := by
          cases hda : d.async with
          | false => rfl
          | true => rw [hd hda] at he; cases he
        simp [frontInfo, frontDriver, early_first, he, request, this, frontAgent_ok o agents _ ha, Info.before,
          Info.hooks, lateD, lateA]
      · simp only [Bool.not_eq_true] at he
        simp [frontInfo, frontDriver, early_first, he, frontAgent_ok o agents _ ha, Info.before,
          Info.hooks, lateD, lateA]

theorem frontInfo_bad (o : Order) (i : Info) (f : Front)
    (h : ∃ x ∈ i.hooks, x.async = true ∧ first o x = true) :
    ∃ f' l, frontInfo o f i = (f', false) ∧ f'.log = f.log ++ l ∧
      ∀ e ∈ l, ∃ x ∈ i.hooks, x.async = false ∧ e = .hook x.id := by
  obtain ⟨ports, hook, agents⟩ := i
  cases ports with
  | cons p ps => obtain ⟨x, hx, _⟩ := h; simp [Info.hooks] at hx
  | nil =>
    cases hook with
    | none =>
      obtain ⟨f', l, h1, h2, h3⟩ := frontAgent_bad o agents f (by simpa [Info.hooks] using h)
      exact ⟨f', l, by simp [frontInfo, frontDriver, h1], h2, by simpa [Info.hooks] using h3⟩
    | some d =>
      by_cases he : first o d = true
      · cases hda : d.async with
        | true => exact ⟨f, [], by simp [frontInfo, frontDriver, early_first, he, request, hda], by simp, by simp⟩
        | false =>
          obtain ⟨x, hx, hxa, hxe⟩ := h
          have hx' : x ∈ agents := by
            simp [Info.hooks] at hx
            rcases hx with rfl | hx
            · rw [hda] at hxa; cases hxa
            · exact hx
          obtain ⟨f', l, h1, h2, h3⟩ :=
            frontAgent_bad o agents { f with log := f.log ++ [.hook d.id] } ⟨x, hx', hxa, hxe⟩
          refine ⟨f', .hook d.id :: l, by simp [frontInfo, frontDriver, early_first, he, request, hda, h1],
            by simp [h2], ?_⟩
          intro e hm
          rcases List.mem_cons.mp hm with rfl | hm
          · exact ⟨d, by simp [Info.hooks], hda, rfl⟩
          · obtain ⟨z, hz, hza⟩ := h3 e hm
            exact ⟨z, by simp [Info.hooks, hz], hza⟩
      · obtain ⟨x, hx, hxa, hxe⟩ := h
        have hx' : x ∈ agents := by
          simp [Info.hooks] at hx
          rcases hx with rfl | hx
          · exact absurd hxe he
          · exact hx
        obtain ⟨f', l, h1, h2, h3⟩ :=
          frontAgent_bad o agents { f with lateDriver := f.lateDriver ++ [d] } ⟨x, hx', hxa, hxe⟩
        refine ⟨f', l, by simp [frontInfo, frontDriver, early_first, he, h1], by simp [h2], ?_⟩
        intro e hm
        obtain ⟨z, hz, hza⟩ := h3 e hm
        exact ⟨z, by simp [Info.hooks, hz], hza⟩

theorem frontAll_ok (o : Order) (is : List Info) (f : Front) (h : ¬EarlyAsync o is) :
    frontAll o f is = (⟨f.log ++ is.flatMap (Info.before o), f.lateDriver ++ is.flatMap (lateD o),
      f.lateAgent ++ is.flatMap (lateA o)⟩, true) := by
  induction is generalizing f with
  | nil => simp [frontAll]
  | cons i is ih =>
    have h1 : ∀ x ∈ i.hooks, x.async = true → first o x = false := by
      intro x hx ha
      cases he : first o x with
      | false => rfl
      | true => exact absurd ⟨i, List.mem_cons_self, x, hx, ha, he⟩ h
    have h2 : ¬EarlyAsync o is := fun ⟨j, hj, r⟩ => h ⟨j, List.mem_cons_of_mem _ hj, r⟩
    simp [frontAll, frontInfo_ok o i f h1, ih _ h2]

theorem frontAll_bad (o : Order) (pre : List Info) (i : Info) (post : List Info) (f : Front)
    (hp : ¬EarlyAsync o pre) (h : ∃ x ∈ i.hooks, x.async = true ∧ first o x = true) :
    ∃ f' l, frontAll o f (pre ++ i :: post) = (f', false) ∧
      f'.log = f.log ++ pre.flatMap (Info.before o) ++ l ∧
      ∀ e ∈ l, ∃ x ∈ i.hooks, x.async = false ∧ e = .hook x.id := by
  induction pre generalizing f with
  | nil =>
    obtain ⟨f', l, h1, h2, h3⟩ := frontInfo_bad o i f h
    exact ⟨f', l, by simp [frontAll, h1], by simp [h2], h3⟩
  | cons j pre ih =>
    have h1 : ∀ x ∈ j.hooks, x.async = true → first o x = false := by
      intro x hx ha
      cases he : first o x with
      | false => rfl
      | true => exact absurd ⟨j, List.mem_cons_self, x, hx, ha, he⟩ hp
    have h2 : ¬EarlyAsync o pre := fun ⟨k, hk, r⟩ => hp ⟨k, List.mem_cons_of_mem _ hk, r⟩
    obtain ⟨f', l, a, b, c⟩ := ih
      ⟨f.log ++ j.before o, f.lateDriver ++ lateD o j, f.lateAgent ++ lateA o j⟩ h2
    exact ⟨f', l, by simp [frontAll, frontInfo_ok o j f h1, a], by simp [b], c⟩

theorem early_split (o : Order) (is : List Info) (h : EarlyAsync o is) :
    ∃ pre i post, is = pre ++ i :: post ∧ ¬EarlyAsync o pre ∧
      ∃ x ∈ i.hooks, x.async = true ∧ first o x = true := by
  induction is with
  | nil => obtain ⟨i, hi, _⟩ := h; cases hi
  | cons j is ih =>
    by_cases hj : ∃ x ∈ j.hooks, x.async = true ∧ first o x = true
    · exact ⟨[], j, is, rfl, (by rintro ⟨i, hi, _⟩; cases hi), hj⟩
    · have : EarlyAsync o is := by
        obtain ⟨i, hi, r⟩ := h
        rcases List.mem_cons.mp hi with rfl | hi
        · exact absurd r hj
        · exact ⟨i, hi, r⟩
      obtain ⟨pre, i, post, e, h1, h2⟩ := ih this
      refine ⟨j :: pre, i, post, by simp [e], ?_, h2⟩
      rintro ⟨k, hk, r⟩
      rcases List.mem_cons.mp hk with rfl | hk
      · exact hj r
      · exact h1 ⟨k, hk, r⟩

theorem requestAll_ok (hs : List Hook) (l : List Effect) (h : ∀ x ∈ hs, x.async = false) :
    requestAll l hs = (l ++ hs.map (fun h => .hook h.id), true) := by
  induction hs generalizing l with
  | nil => simp [requestAll]
  | cons x xs ih =>
    simp [requestAll, request, h x List.mem_cons_self, ih _ (fun y hy => h y (List.mem_cons_of_mem _ hy))]

theorem requestAll_bad (hs : List Hook) (l : List Effect) (h : ∃ x ∈ hs, x.async = true) :
    ∃ l', requestAll l hs = (l ++ l', false) ∧
      ∀ e ∈ l', ∃ x ∈ hs, x.async = false ∧ e = .hook x.id := by
  induction hs generalizing l with
  | nil => obtain ⟨x, hx, _⟩ := h; cases hx
  | cons x xs ih =>
    cases ha : x.async with
    | true => exact ⟨[], by simp [requestAll, request, ha], by simp⟩
    | false =>
      obtain ⟨y, hy, hya⟩ := h
      have hy' : y ∈ xs := by
        rcases List.mem_cons.mp hy with rfl | h
        · rw [ha] at hya; cases hya
        · exact h
      obtain ⟨l', h1, h2⟩ := ih (l ++ [.hook x.id]) ⟨y, hy', hya⟩
      refine ⟨.hook x.id :: l', by simp [requestAll, request, ha, h1], ?_⟩
      intro e hm
      rcases List.mem_cons.mp hm with rfl | hm
      · exact ⟨x, List.mem_cons_self, ha, rfl⟩
      · obtain ⟨z, hz, hza⟩ := h2 e hm
        exact ⟨z, List.mem_cons_of_mem _ hz, hza⟩

theorem mem_late (o : Order) (is : List Info) (x : Hook) :
    x ∈ is.flatMap (lateD o) ++ is.flatMap (lateA o) ↔
      ∃ i ∈ is, x ∈ i.hooks ∧ first o x = false := by
  have hd : ∀ i : Info, x ∈ lateD o i ∨ x ∈ lateA o i ↔ x ∈ i.hooks ∧ first o x = false := by
    intro i
    by_cases hp : i.ports = []
    · simp only [lateD, lateA, Info.hooks, hp, if_pos, List.mem_filter, List.mem_append,
        Bool.not_eq_true']
      constructor
      · rintro (⟨a, b⟩ | ⟨a, b⟩)
        · exact ⟨.inl a, b⟩
        · exact ⟨.inr a, b⟩
      · rintro ⟨a | a, b⟩
        · exact .inl ⟨a, b⟩
        · exact .inr ⟨a, b⟩
    · simp [lateD, lateA, Info.hooks, hp]
  simp only [List.mem_append, List.mem_flatMap]
  constructor
  · rintro (⟨i, hi, h⟩ | ⟨i, hi, h⟩)
    · exact ⟨i, hi, (hd i).mp (.inl h)⟩
    · exact ⟨i, hi, (hd i).mp (.inr h)⟩
  · rintro ⟨i, hi, h⟩
    rcases (hd i).mpr h with h | h
    · exact .inl ⟨i, hi, h⟩
    · exact .inr ⟨i, hi, h⟩

/-- The outcome of a call in which no first hook is a coroutine function. -/
theorem driverCall_late (o : Order) (is : List Info) (h : ¬EarlyAsync o is) :
    driverCall o is =
      match requestAll (is.flatMap (Info.before o) ++ [.method])
        (is.flatMap (lateD o) ++ is.flatMap (lateA o)) with
      | (l, false) => ⟨l, some .background⟩
      | (l, true) => ⟨l ++ [.compare], none⟩ := by
  rw [driverCall, frontAll_ok o is _ h]
  simp only [List.nil_append]
  generalize requestAll _ _ = r
  obtain ⟨l, b⟩ := r
  cases b <;> rfl

theorem method_not_before (o : Order) (is : List Info) : Effect.method ∉ is.flatMap (Info.before o) := by
  simp [Info.before]

/-! ## C116 -/

/-- C116: when no hook is a coroutine function, a driver call gives every model its ports' values and
its hooks in order, those set to run first before the method and the others after it, compares, and
raises nothing. -/
theorem C116_plain (o : Order) (is : List Info) (h : Plain is) :
    driverCall o is =
      ⟨is.flatMap (Info.before o) ++ [.method] ++ after o is ++ [.compare], none⟩ := by
  have he : ¬EarlyAsync o is := by
    rintro ⟨i, hi, x, hx, ha, _⟩
    rw [h i hi x hx] at ha; cases ha
  rw [driverCall_late o is he, requestAll_ok]
  · rfl
  · intro x hx
    obtain ⟨i, hi, hxi, _⟩ := (mem_late o is x).mp hx
    exact h i hi x hxi

/-- C116: a driver call with a hook that is a coroutine function never passes over it: an
`AssertionError` is raised, in the call if such a hook is to run before the method and in the background
task otherwise; the results are not compared; and only functions that are no coroutine functions have
been requested. -/
theorem C116_refused (o : Order) (is : List Info) (h : ¬Plain is) :
    (EarlyAsync o is → (driverCall o is).raised = some .call) ∧
      (¬EarlyAsync o is → (driverCall o is).raised = some .background) ∧
      Effect.compare ∉ (driverCall o is).log ∧
      (∀ n, Effect.hook n ∈ (driverCall o is).log →
        ∃ i ∈ is, ∃ x ∈ i.hooks, x.async = false ∧ x.id = n) ∧
      (Effect.method ∈ (driverCall o is).log ↔ ¬EarlyAsync o is) := by
  have hbefore : ∀ js : List Info, (∀ j ∈ js, j ∈ is) → ¬EarlyAsync o js → ∀ n,
      Effect.hook n ∈ js.flatMap (Info.before o) →
      ∃ i ∈ is, ∃ x ∈ i.hooks, x.async = false ∧ x.id = n := by
    intro js hjs hno n hn
    simp only [Info.before, List.mem_flatMap, List.mem_append, List.mem_map, List.mem_filter] at hn
    obtain ⟨i, hi, ⟨p, _, hp⟩ | ⟨x, ⟨hx, hxe⟩, hxn⟩⟩ := hn
    · cases hp
    · refine ⟨i, hjs i hi, x, hx, ?_, by simpa using hxn⟩
      cases ha : x.async with
      | false => rfl
      | true => exact absurd ⟨i, hi, x, hx, ha, hxe⟩ hno
  by_cases he : EarlyAsync o is
  · obtain ⟨pre, i, post, e, hp, hb⟩ := early_split o is he
    obtain ⟨f', l, h1, h2, h3⟩ := frontAll_bad o pre i post ⟨[], [], []⟩ hp hb
    have hcall : driverCall o is = ⟨f'.log, some .call⟩ := by simp [driverCall, e, h1]
    have hi : i ∈ is := by simp [e]
    rw [hcall]
    refine ⟨fun _ => rfl, fun hn => absurd he hn, ?_, ?_, ?_⟩
    · rw [show f'.log = _ from h2]
      intro hm
      rcases List.mem_append.mp hm with hm | hm
      · simp [Info.before] at hm
      · obtain ⟨_, _, _, hh⟩ := h3 _ hm; cases hh
    · intro n hm
      rw [show f'.log = _ from h2] at hm
      rcases List.mem_append.mp hm with hm | hm
      · exact hbefore pre (fun j hj => by simp [e, hj]) hp n (by simpa using hm)
      · obtain ⟨x, hx, ha, hh⟩ := h3 _ hm
        exact ⟨i, hi, x, hx, ha, by cases hh; rfl⟩
    · refine ⟨fun hm => ?_, fun hn => absurd he hn⟩
      rw [show f'.log = _ from h2] at hm
      rcases List.mem_append.mp hm with hm | hm
      · simp [Info.before] at hm
      · obtain ⟨_, _, _, hh⟩ := h3 _ hm; cases hh
  · have hl : ∃ x ∈ is.flatMap (lateD o) ++ is.flatMap (lateA o), x.async = true := by
      simp only [Plain, Classical.not_forall] at h
      obtain ⟨i, hi, x, hx, ha⟩ := h
      have ha : x.async = true := by simpa using ha
      refine ⟨x, (mem_late o is x).mpr ⟨i, hi, hx, ?_⟩, ha⟩
      cases hxe : first o x with
      | false => rfl
      | true => exact absurd ⟨i, hi, x, hx, ha, hxe⟩ he
    obtain ⟨l', h1, h2⟩ := requestAll_bad _ (is.flatMap (Info.before o) ++ [.method]) hl
    rw [driverCall_late o is he, h1]
    refine ⟨fun hn => absurd hn he, fun _ => rfl, ?_, ?_, ?_⟩
    · show Effect.compare ∉ _ ++ _ ++ l'
      intro hm
      rcases List.mem_append.mp hm with hm | hm
      · simp [Info.before] at hm
      · obtain ⟨_, _, _, hh⟩ := h2 _ hm; cases hh
    · intro n hm
      replace hm : Effect.hook n ∈ is.flatMap (Info.before o) ++ [.method] ++ l' := hm
      rcases List.mem_append.mp hm with hm | hm
      · exact hbefore is (fun _ h => h) he n (by simpa using hm)
      · obtain ⟨x, hx, ha, hh⟩ := h2 _ hm
        obtain ⟨i, hi, hxi, _⟩ := (mem_late o is x).mp hx
        exact ⟨i, hi, x, hxi, ha, by cases hh; rfl⟩
    · refine ⟨fun _ => he, fun _ => ?_⟩
      show Effect.method ∈ _ ++ _ ++ l'
      simp

/-- C116, not what a user expects: a call refused for the hook of one model has by then been told to the
models before it: their ports hold it and their hooks run at the next edge, though the method never
runs.  `pre` are the models before the first with such a hook. -/
theorem C116_trace_violated (o : Order) (pre : List Info) (i : Info) (post : List Info)
    (hp : ¬EarlyAsync o pre) (h : ∃ x ∈ i.hooks, x.async = true ∧ first o x = true) :
    (driverCall o (pre ++ i :: post)).raised = some .call ∧
      Effect.method ∉ (driverCall o (pre ++ i :: post)).log ∧
      pre.flatMap (Info.before o) <+: (driverCall o (pre ++ i :: post)).log := by
  have he : EarlyAsync o (pre ++ i :: post) := by
    obtain ⟨x, hx⟩ := h
    exact ⟨i, by simp, x, hx⟩
  have hnp : ¬Plain (pre ++ i :: post) := by
    intro hpl
    obtain ⟨j, hj, x, hx, ha, _⟩ := he
    rw [hpl j hj x hx] at ha; cases ha
  obtain ⟨r1, _, _, _, r4⟩ := C116_refused o _ hnp
  refine ⟨r1 he, fun hm => (r4.mp hm) he, ?_⟩
  obtain ⟨f', l, h1, h2, _⟩ := frontAll_bad o pre i post ⟨[], [], []⟩ hp h
  refine ⟨l, ?_⟩
  simp [driverCall, h1, h2]

theorem foldl_monitor (is : List MInfo) (out : MOutcome) :
    is.foldl monitorInfo out =
      ⟨out.puts ++ is.flatMap (fun i => i.agentPorts ++ i.port.toList),
       out.ran ++ is.flatMap (fun i => (i.agentHooks ++ i.hook.toList).map runHook), out.raised⟩ := by
  induction is generalizing out with
  | nil => simp
  | cons i is ih => rw [List.foldl_cons, ih]; simp [monitorInfo]

/-- C116: a monitored value reaches every port, and every hook that is no coroutine function runs, in
the order of models, agent hooks before the monitor hook. -/
theorem C116_monitor_partial (is : List MInfo) :
    (monitorCall is).puts = is.flatMap (fun i => i.agentPorts ++ i.port.toList) ∧
      (monitorCall is).ran.filterMap (fun r => match r with | .body n => some n | .unawaited _ => none) =
        ((is.flatMap fun i => i.agentHooks ++ i.hook.toList).filter fun h => !h.async).map Hook.id := by
  rw [monitorCall, foldl_monitor]
  refine ⟨by simp, ?_⟩
  simp only [List.nil_append]
  have : is.flatMap (fun i => (i.agentHooks ++ i.hook.toList).map runHook) =
      (is.flatMap fun i => i.agentHooks ++ i.hook.toList).map runHook := by
    rw [List.map_flatMap]
  rw [this]
  generalize is.flatMap (fun i => i.agentHooks ++ i.hook.toList) = hs
  induction hs with
  | nil => rfl
  | cons h hs ih =>
    cases ha : h.async with
    | true => simpa [runHook, ha] using ih
    | false => simpa [runHook, ha] using ih

/-- C116, not what a user expects: the body of a monitor hook or agent hook that is a coroutine function
never runs for a monitored value, and nothing is raised. -/
theorem C116_monitor_violated (is : List MInfo) (i : MInfo) (hi : i ∈ is) (x : Hook)
    (hx : x ∈ i.agentHooks ++ i.hook.toList) (ha : x.async = true)
    (hid : ∀ j ∈ is, ∀ y ∈ j.agentHooks ++ j.hook.toList, y.id = x.id → y = x) :
    (monitorCall is).raised = false ∧ Ran.body x.id ∉ (monitorCall is).ran ∧
      Ran.unawaited x.id ∈ (monitorCall is).ran := by
  rw [monitorCall, foldl_monitor]
  refine ⟨rfl, ?_, ?_⟩
  · show Ran.body x.id ∉ [] ++ _
    simp only [List.nil_append, List.mem_flatMap, List.mem_map, not_exists, not_and]
    intro j hj y hy hr
    cases hya : y.async with
    | true => simp [runHook, hya] at hr
    | false =>
      have := hid j hj y hy (by simpa [runHook, hya] using hr)
      rw [this, ha] at hya; cases hya
  · show Ran.unawaited x.id ∈ [] ++ _
    simp only [List.nil_append, List.mem_flatMap, List.mem_map]
    exact ⟨i, hi, x, hx, by simp [runHook, ha]⟩

/-! Non-vacuity: three models, the second with an `async def` hook. -/

def m1 : Info := ⟨[], some ⟨1, false, true⟩, [⟨2, false, false⟩]⟩
def m2 : Info := ⟨[], some ⟨3, true, true⟩, []⟩
def m3 : Info := ⟨[7], none, []⟩

example : Plain [m3, m1] := by
  intro i hi h hh
  simp only [List.mem_cons, List.not_mem_nil, or_false] at hi
  rcases hi with rfl | rfl
  · simp [m3, Info.hooks] at hh
  · simp only [m1, Info.hooks, if_pos, Option.toList_some, List.cons_append, List.nil_append,
      List.mem_cons, List.not_mem_nil, or_false] at hh
    rcases hh with rfl | rfl <;> rfl

example : driverCall .unset [m3, m1] =
    ⟨[.port 7, .hook 1, .method, .hook 2, .compare], none⟩ := by decide
example : driverCall .unset [m1, m3, m2] = ⟨[.hook 1, .port 7], some .call⟩ := by decide
example : driverCall .dutFirst [m2, m3, m1] = ⟨[.port 7, .method], some .background⟩ := by decide
example : driverCall .dutFirst [m1, m3, m2] = ⟨[.port 7, .method, .hook 1], some .background⟩ := by
  decide
example : ¬EarlyAsync .unset [m1, m3] := by
  rintro ⟨i, hi, x, hx, ha, _⟩
  simp only [List.mem_cons, List.not_mem_nil, or_false] at hi
  rcases hi with rfl | rfl
  · simp only [m1, Info.hooks, if_pos, Option.toList_some, List.cons_append, List.nil_append,
      List.mem_cons, List.not_mem_nil, or_false] at hx
    rcases hx with rfl | rfl <;> cases ha
  · simp [m3, Info.hooks] at hx
example : ∃ x ∈ m2.hooks, x.async = true ∧ first .unset x = true :=
  ⟨⟨3, true, true⟩, by simp [m2, Info.hooks], rfl, rfl⟩
example : monitorCall [⟨[4], some 5, [⟨1, false, true⟩], some ⟨2, true, true⟩⟩] =
    ⟨[4, 5], [.body 1, .unawaited 2], false⟩ := by decide

end Toffee.AsyncHook
