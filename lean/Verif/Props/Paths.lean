import Verif.Model.Paths

/-! Path resolution of hooks and ports (`toffee/model.py`): C28, C67. -/

namespace Toffee.Paths

/-- The two underscores. -/
def dunder : Name := ['_', '_']

theorem replace_none {s : Name} (h : ¬ dunder <:+: s) : replaceDunder s = s := by
  fun_induction replaceDunder s with
  | case1 t ih => exact absurd ⟨[], t, rfl⟩ h
  | case2 c t _ ih =>
    rw [ih fun ⟨u, v, hv⟩ => h ⟨c :: u, v, by rw [← hv]; rfl⟩]
  | case3 => rfl

theorem replace_first {u t : Name} (h : ¬ dunder <:+: u ++ ['_']) :
    replaceDunder (u ++ dunder ++ t) = u ++ '.' :: replaceDunder t := by
  induction u with
  | nil => rfl
  | cons c u ih =>
    have hu : ¬ dunder <:+: u ++ ['_'] := fun ⟨a, b, hb⟩ =>
      h ⟨c :: a, b, by rw [List.cons_append, List.cons_append, hb]; rfl⟩
    have ih := ih hu
    rw [List.cons_append, List.cons_append, replaceDunder]
    · rw [ih]; rfl
    · rintro t' hc ht
      cases u with
      | nil =>
        subst hc
        exact h ⟨[], [], rfl⟩
      | cons c' u =>
        simp only [List.cons_append, List.cons.injEq] at ht
        obtain ⟨rfl, _⟩ := ht
        subst hc
        exact h ⟨[], u ++ ['_'], rfl⟩

/-- **C28**, what `__` means: it is read as a dot at its leftmost occurrence and then in the rest
behind it, and a name without `__` stays.  (The two equations determine the function.) -/
theorem C28_dunder (u t : Name) :
    (¬ dunder <:+: u → replaceDunder u = u) ∧
    (¬ dunder <:+: u ++ ['_'] →
      replaceDunder (u ++ dunder ++ t) = u ++ '.' :: replaceDunder t) :=
  ⟨replace_none, replace_first⟩

/-- **C28.** `agent__method` names `agent.method` if `agent` has no `__` and does not end in `_`, and
`method` has no `__`. -/
theorem C28_agent_method (agent method : Name) (h1 : ¬ dunder <:+: agent)
    (h2 : agent.getLast? ≠ some '_') (h3 : ¬ dunder <:+: method) :
    replaceDunder (agent ++ dunder ++ method) = agent ++ '.' :: method := by
  rw [replace_first, replace_none h3]
  rintro ⟨u, v, h⟩
  rcases List.eq_nil_or_concat v with rfl | ⟨v, x, rfl⟩
  · rw [List.append_nil] at h
    have h : (u ++ ['_']) ++ ['_'] = agent ++ ['_'] := by simpa [dunder] using h
    have h := List.append_inj_left' h rfl
    rw [← h] at h2
    simp at h2
  · rw [List.concat_eq_append, ← List.append_assoc] at h
    exact h1 ⟨u, v, List.append_inj_left' h rfl⟩

/-- A name without `__` at all is used as it is, so it names no method of an agent. -/
theorem C28_plain_name (n : Name) (h : ¬ dunder <:+: n) (hd : '.' ∉ n) :
    '.' ∉ replaceDunder n := by
  rw [replace_none h]
  exact hd

/-- How the documentation resolves a path. -/
inductive Resolves : Args → Name → Name → Prop
  | path {p own : Name} (h : p ≠ []) : Resolves ⟨p, [], []⟩ own p
  | both {a m own : Name} (ha : a ≠ []) (hm : m ≠ []) : Resolves ⟨[], a, m⟩ own (a ++ '.' :: m)
  | agent {a own : Name} (ha : a ≠ []) : Resolves ⟨[], a, []⟩ own (a ++ '.' :: own)
  | own {own : Name} : Resolves ⟨[], [], []⟩ own (replaceDunder own)

/-- **C28.** A hook made with a new decorator resolves to `r` iff the documentation says so; in
particular contradictory arguments are rejected, and all others are accepted. -/
theorem C28_hook (a : Args) (own r : Name) :
    (∃ d, mkDecorator a = some d ∧ (decorate d own).1 = r) ↔ Resolves a own r := by
  obtain ⟨p, ag, m⟩ := a
  unfold mkDecorator decorate Args.resolve Args.check
  constructor
  · rintro ⟨d, h1, rfl⟩
    split at h1
    · rename_i hc
      cases h1
      simp only [Bool.and_eq_true, Bool.or_eq_true, decide_eq_true_eq, ne_eq] at hc
      by_cases hp : p = []
      · subst hp
        by_cases ha : ag = []
        · subst ha
          obtain rfl : m = [] := by simpa using hc.2
          simpa using Resolves.own
        · by_cases hm : m = []
          · subst hm
            simpa [ha] using Resolves.agent ha
          · simpa [ha, hm] using Resolves.both ha hm
      · obtain ⟨rfl, rfl⟩ : ag = [] ∧ m = [] := by simpa [hp] using hc.1
        simpa [hp] using Resolves.path hp
    · cases h1
  · intro h
    cases h with
    | path h => exact ⟨_, if_pos (by simp), by simp [h]⟩
    | both ha hm => exact ⟨_, if_pos (by simp [ha]), by simp [ha, hm]⟩
    | agent ha => exact ⟨_, if_pos (by simp), by simp [ha]⟩
    | own => exact ⟨_, if_pos (by simp), by simp⟩

/-- **C28.** The same for ports. -/
theorem C28_port (a : Args) (own r : Name) : portPath a own = some r ↔ Resolves a own r := by
  rw [← C28_hook]
  unfold portPath mkDecorator decorate
  cases a.check <;> simp

/-- **C28.** Which arguments are accepted. -/
theorem C28_accepts (a : Args) :
    (mkDecorator a).isSome ↔
      (a.path ≠ [] → a.agent = [] ∧ a.method = []) ∧ (a.method ≠ [] → a.agent ≠ []) := by
  obtain ⟨p, ag, m⟩ := a
  unfold mkDecorator Args.check
  by_cases hp : p = [] <;> by_cases ha : ag = [] <;> by_cases hm : m = [] <;> simp [hp, ha, hm]

/-- **C28.** An agent hook made with a new decorator hooks the agent given, or the one called like
the function if nothing at all is given; giving both an agent and a list of agents is rejected. -/
theorem C28_agent_hook (a : AgentArgs) (own : Name) :
    ((mkAgentDecorator a).isSome ↔ ¬ (a.agent ≠ [] ∧ a.agents ≠ [])) ∧
    ∀ d, mkAgentDecorator a = some d → (agentDecorate d own).1 =
      if a.agent = [] ∧ a.agents = [] ∧ a.methods = [] then own else a.agent := by
  constructor
  · unfold mkAgentDecorator
    by_cases h1 : a.agent = [] <;> by_cases h2 : a.agents = [] <;> simp [h1, h2]
  · intro d hd
    unfold mkAgentDecorator at hd
    split at hd <;> cases hd
    rfl

/-! ### C67: decorators used more than once -/

/-- **C67 is false.** A decorator object applied to a second function gives it the path of the first,
although both functions decorated with fresh decorators would get their own. -/
theorem C67_reuse_violated :
    ∃ (a d : Args) (f g : Name), mkDecorator a = some d ∧
      Resolves a f (decorate d f).1 ∧
      (decorate (decorate d f).2 g).1 = (decorate d f).1 ∧
      ¬ Resolves a g (decorate (decorate d f).2 g).1 := by
  refine ⟨⟨[], "a".toList, []⟩, _, "m".toList, "n".toList, rfl, ?_, rfl, ?_⟩
  · exact .agent (by decide)
  · intro h
    have h := (C28_hook _ _ _).2 h
    obtain ⟨d, h1, h2⟩ := h
    cases h1
    revert h2
    decide

/-- **C67 is false** for agent hooks too. -/
theorem C67_agent_reuse_violated :
    ∃ (a d : AgentArgs) (f g : Name), mkAgentDecorator a = some d ∧ f ≠ g ∧
      (agentDecorate d f).1 = f ∧ (agentDecorate (agentDecorate d f).2 g).1 = f :=
  ⟨⟨[], [], []⟩, _, "a".toList, "b".toList, rfl, by decide, rfl, rfl⟩

/-- **C67**, the part that holds: a decorator that was given a path, or an agent and a method, gives
every function the same path as a fresh decorator would.  Missing: the decorators whose path depends
on the function (`C67_reuse_violated`). -/
theorem C67_reuse_partial (a d : Args) (f g r : Name) (hd : mkDecorator a = some d)
    (h : a.path ≠ [] ∨ a.method ≠ []) :
    (decorate (decorate d f).2 g).1 = r ↔ Resolves a g r := by
  have hc : d = a := by
    unfold mkDecorator at hd
    split at hd <;> cases hd
    rfl
  subst hc
  have hs : (decorate (decorate d f).2 g).1 = (decorate d g).1 := by
    obtain ⟨p, ag, m⟩ := d
    unfold decorate Args.resolve
    by_cases hp : p = []
    · subst hp
      have hm : m ≠ [] := by simpa using h
      have ha : ag ≠ [] := by
        have := (C28_accepts ⟨[], ag, m⟩).1 (by rw [hd]; rfl)
        exact this.2 hm
      simp [ha, hm]
    · simp [hp]
  rw [hs, ← C28_hook]
  constructor
  · intro h
    exact ⟨d, hd, h⟩
  · rintro ⟨d', h1, h2⟩
    rw [hd] at h1
    cases h1
    exact h2

/-! ### Examples -/

/-- The hypotheses of `C28_agent_method` allow leading underscores in the method and single ones
inside the agent's name. -/
example : ¬ dunder <:+: "my_agent".toList ∧ "my_agent".toList.getLast? ≠ some '_' ∧
    ¬ dunder <:+: "_do_it".toList ∧
    replaceDunder "my_agent___do_it".toList = "my_agent._do_it".toList := by
  decide +kernel

/-- All four ways to name a method, and two contradictory ones. -/
example : (mkDecorator ⟨"a.m".toList, [], []⟩).isSome ∧ (mkDecorator ⟨[], "a".toList, "m".toList⟩).isSome ∧
    (mkDecorator ⟨[], "a".toList, []⟩).isSome ∧ (mkDecorator ⟨[], [], []⟩).isSome ∧
    mkDecorator ⟨"a.m".toList, "a".toList, []⟩ = none ∧ mkDecorator ⟨[], [], "m".toList⟩ = none := by
  decide

end Toffee.Paths
