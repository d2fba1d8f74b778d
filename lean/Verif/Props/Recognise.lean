import Verif.Model.Recognise
import Verif.Props.Agent
import Verif.Props.Executor

/-! How the executor recognises driver calls (`toffee/executor.py` 248-261): C99. -/

namespace Toffee.Recognise

open Toffee.Agent (Name Class Func Finds Classes OwnNames)

/-- `exec(coro)` without settings. -/
def plainCall (k : Executor.Coro) : Executor.Call := ⟨k, none, none, none⟩
/-- `exec(coro, priority=p)`. -/
def prioCall (k : Executor.Coro) (p : Int) : Executor.Call := ⟨k, some p, none, none⟩

/-- **C99.** The executor recognises a coroutine as a call of the driver function `f` exactly if it
has a variable `agent` that holds an agent whose driver method of the coroutine's name is `f`. -/
theorem C99_recognised (c : CoroObj) (a : AgentObj) (f : Func)
    (h : ∀ b, c.var = .agent b → Classes b.mro ∧ OwnNames b.mro) :
    getDriver c = some (some (a, f)) ↔
      c.var = .agent a ∧ Finds a.mro 0 c.name (.driver f) := by
  unfold getDriver
  cases hv : c.var with
  | absent => simp
  | none => simp
  | other => simp
  | agent b =>
    obtain ⟨hc, ho⟩ := h b hv
    simp only [Option.some.injEq, Option.map_eq_some_iff, Prod.mk.injEq, Var.agent.injEq]
    constructor
    · rintro ⟨g, h1, rfl, rfl⟩
      refine ⟨rfl, ?_⟩
      obtain ⟨h2, n, h3⟩ := Agent.drivers_get hc h1
      have h4 := ho n g h3
      rw [h2] at h4
      rw [h4]
      exact h3
    · rintro ⟨rfl, h1⟩
      exact ⟨f, Agent.drivers_own hc ho h1, rfl, rfl⟩

/-- **C99.** The driver whose settings the executor changes is the driver that carries out the call,
for every driver call, also through `super()` and for functions under other names. -/
theorem C99_same_driver (a : AgentObj) (k : Nat) (n : Name) (hc : Classes a.mro) (f : Func)
    (h : Finds a.mro k n (.driver f)) :
    ∃ c, method a k n = some c ∧
      ∀ g, getDriver c = some (some (a, g)) ↔ Agent.call a.mro k n = .runs g := by
  have h1 := (Agent.lookup_iff hc k n _).2 h
  refine ⟨⟨f.name, .agent a⟩, by simp only [method, h1], fun g => ?_⟩
  simp only [getDriver, Agent.call, h1, Option.some.injEq, Option.map_eq_some_iff, Prod.mk.injEq,
    true_and, exists_eq_right]
  cases (Agent.drivers a.mro).get? f.name <;> simp

/-- **C99.** A driver call `agent.n(..)` is recognised: its group is the name of the agent and of the
method, and it may have a priority. -/
theorem C99_driver_call (a : AgentObj) (n : Name) (hc : Classes a.mro) (ho : OwnNames a.mro) (f : Func)
    (h : Finds a.mro 0 n (.driver f)) (id : Nat) :
    ∃ c k, method a 0 n = some c ∧ getDriver c = some (some (a, f)) ∧ toCoro id c = some k ∧
      (plainCall k).groupName = a.name ++ '.' :: n ∧
      ∀ p, (prioCall k p).ok = true ↔ 0 ≤ p ∧ p ≤ 99 := by
  have h1 := (Agent.lookup_iff hc 0 n _).2 h
  have h2 : getDriver ⟨f.name, .agent a⟩ = some (some (a, f)) := by
    rw [C99_recognised _ _ _ (by rintro b hb; cases hb; exact ⟨hc, ho⟩)]
    exact ⟨rfl, by rw [ho n f h]; exact h⟩
  refine ⟨⟨f.name, .agent a⟩, ⟨id, f.name, some a.name⟩, by simp only [method, h1], h2, ?_, ?_, ?_⟩
  · unfold toCoro
    rw [h2]
    rfl
  · simp only [plainCall, Executor.Call.groupName, ho n f h]
  · intro p
    simp [prioCall, Executor.Call.ok]

/-- **C99**, for coroutines that have no variable `agent`, or one that is `None` or an agent without a
driver method of the coroutine's name: they are not taken for driver calls; the group is their own
name, and a priority is rejected.  Missing: functions that have the name of a driver method of their
`agent` (`C99_same_name_violated`), and functions whose `agent` is something else
(`C99_other_agent_violated`). -/
theorem C99_custom_partial (c : CoroObj) (id : Nat) (hv : c.var ≠ .other)
    (h : ∀ a, c.var = .agent a → Classes a.mro ∧ OwnNames a.mro ∧
      ∀ f, ¬ Finds a.mro 0 c.name (.driver f)) :
    getDriver c = some none ∧ ∃ k, toCoro id c = some k ∧ (plainCall k).groupName = c.name ∧
      ∀ p, (prioCall k p).ok = false := by
  have h1 : getDriver c = some none := by
    cases hg : getDriver c with
    | none =>
      unfold getDriver at hg
      cases hv' : c.var with
      | other => exact absurd hv' hv
      | absent => rw [hv'] at hg; cases hg
      | none => rw [hv'] at hg; cases hg
      | agent a => rw [hv'] at hg; cases hg
    | some d =>
      cases d with
      | none => rfl
      | some x =>
        obtain ⟨h2, h3⟩ := (C99_recognised c x.1 x.2 fun b hb => ⟨(h b hb).1, (h b hb).2.1⟩).1 hg
        exact absurd h3 ((h _ h2).2.2 _)
  refine ⟨h1, ⟨id, c.name, none⟩, ?_, rfl, fun p => ?_⟩
  · unfold toCoro
    rw [h1]
    rfl
  · simp [prioCall, Executor.Call.ok]

/-- **C99.** In particular the call of a monitor method is not taken for a driver call. -/
theorem C99_monitor (a : AgentObj) (n : Name) (hc : Classes a.mro) (ho : OwnNames a.mro) (f : Func)
    (h : Finds a.mro 0 n (.monitor f)) (hf : f.name = n) :
    ∃ c, method a 0 n = some c ∧ getDriver c = some none := by
  have h1 := (Agent.lookup_iff hc 0 n _).2 h
  refine ⟨⟨f.name, .agent a⟩, by simp only [method, h1], ?_⟩
  refine (C99_custom_partial ⟨f.name, .agent a⟩ 0 (by simp) fun b hb => ?_).1
  cases hb
  refine ⟨hc, ho, fun g hg => ?_⟩
  rw [hf] at hg
  have := Agent.finds_unique hc h hg
  cases this

/-- An agent with the driver method `send`. -/
def demoAgent : AgentObj := ⟨[[("send".toList, .driver ⟨0, "send".toList⟩)]], "agent1".toList⟩
/-- The coroutine of `async def send(agent)` called with this agent
(`docs/source/cases/executor.md`). -/
def demoCustom : CoroObj := ⟨"send".toList, .agent demoAgent⟩

/-- **C99 is false** for a function that has the name of a driver method of its `agent`, as in the
first example of the documentation: it is taken for a call of the driver method.  Its group
is that of the driver method and not its own name, and a priority is accepted. -/
theorem C99_same_name_violated :
    ∃ k, getDriver demoCustom = some (some (demoAgent, ⟨0, "send".toList⟩)) ∧
      toCoro 0 demoCustom = some k ∧ (plainCall k).groupName = "agent1.send".toList ∧
      (prioCall k 5).ok = true :=
  ⟨⟨0, "send".toList, some "agent1".toList⟩, rfl, rfl, by decide +kernel, by decide +kernel⟩

/-- **C99 is false** for every function whose variable `agent` is not an agent: the executor raises
`AttributeError`. -/
theorem C99_other_agent_violated (n : Name) (id : Nat) : toCoro id ⟨n, .other⟩ = none := rfl

/-- An agent with a driver and a monitor method meets the hypotheses; a custom function with another
name is not taken for a driver call. -/
example : Classes demoAgent.mro ∧ OwnNames demoAgent.mro ∧
    Finds demoAgent.mro 0 "send".toList (.driver ⟨0, "send".toList⟩) ∧
    getDriver ⟨"burst".toList, .agent demoAgent⟩ = some none := by
  have hc : Classes demoAgent.mro := by
    intro c hc
    cases List.mem_singleton.1 hc
    decide
  refine ⟨hc, ?_, (Agent.lookup_iff hc 0 _ _).1 (by decide +kernel), rfl⟩
  intro n f h
  have := Agent.finds_mem h
  simp [demoAgent] at this
  obtain ⟨rfl, rfl⟩ := this
  rfl

end Toffee.Recognise
