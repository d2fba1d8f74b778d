import Verif.Model.ClearMatched
import Verif.Props.Attach

/-! `Model.clear_matched` (`toffee/model.py`): C112. -/

namespace Toffee.Attach

open Toffee.Paths (Name)

/-! ### Specification -/

/-- The ids of the driver and monitor hooks and ports. -/
def Model.pathIds (md : Model) : List Nat :=
  md.driverPorts.map PathItem.id ++ md.monitorPorts.map PathItem.id ++
    md.driverHooks.map PathItem.id ++ md.monitorHooks.map PathItem.id

/-- No hook or port of the model is marked: neither as a whole nor, for agent hooks and agent ports,
for one of its methods. -/
def Cleared (md : Model) (f : Flags) : Prop :=
  (∀ i ∈ md.ids, f.matched i = false) ∧
    (∀ h ∈ md.agentHooks, ∀ j, f.methods h.id j = false) ∧
    ∀ p ∈ md.agentPorts, ∀ j, f.methods p.id j = false

/-! ### Lemmas -/

theorem unmarkAll_spec (f : Flags) (xs : List PathItem) :
    (∀ i, (unmarkAll f xs).matched i = if i ∈ xs.map PathItem.id then false else f.matched i) ∧
      (unmarkAll f xs).methods = f.methods := by
  unfold unmarkAll
  induction xs generalizing f with
  | nil => exact ⟨fun _ => by simp, rfl⟩
  | cons x xs ih =>
    obtain ⟨h1, h2⟩ := ih (f.unmark x.id)
    refine ⟨fun i => ?_, h2⟩
    rw [List.foldl_cons, h1]
    show (if i ∈ xs.map PathItem.id then false else if i = x.id then false else f.matched i) = _
    by_cases ha : i = x.id <;> by_cases hb : i ∈ xs.map PathItem.id <;> simp only [List.map_cons, List.mem_cons, ha, hb] <;> simp

theorem clearAgentPorts_spec (f : Flags) (ps : List AgentPort) :
    (∀ i, (clearAgentPorts f ps).matched i =
      if i ∈ ps.map AgentPort.id then false else f.matched i) ∧
      ∀ i j, (clearAgentPorts f ps).methods i j =
        if i ∈ ps.map AgentPort.id then false else f.methods i j := by
  unfold clearAgentPorts
  induction ps generalizing f with
  | nil => exact ⟨fun _ => by simp, fun _ _ => by simp⟩
  | cons x xs ih =>
    obtain ⟨h1, h2⟩ := ih ((f.unmark x.id).unmarkMethods x.id)
    refine ⟨fun i => ?_, fun i j => ?_⟩
    · rw [List.foldl_cons, h1]
      show (if i ∈ xs.map AgentPort.id then false else if i = x.id then false else f.matched i) = _
      by_cases ha : i = x.id <;> by_cases hb : i ∈ xs.map AgentPort.id <;> simp only [List.map_cons, List.mem_cons, ha, hb] <;> simp
    · rw [List.foldl_cons, h2]
      show (if i ∈ xs.map AgentPort.id then false else if i = x.id then false else f.methods i j) = _
      by_cases ha : i = x.id <;> by_cases hb : i ∈ xs.map AgentPort.id <;> simp only [List.map_cons, List.mem_cons, ha, hb] <;> simp

/-- The four loops over driver and monitor hooks and ports. -/
theorem loops_spec (md : Model) (f : Flags) :
    let g := unmarkAll (unmarkAll (unmarkAll (unmarkAll f md.driverPorts) md.monitorPorts)
      md.driverHooks) md.monitorHooks
    (∀ i, g.matched i = if i ∈ md.pathIds then false else f.matched i) ∧ g.methods = f.methods := by
  intro g
  obtain ⟨a1, a2⟩ := unmarkAll_spec f md.driverPorts
  obtain ⟨b1, b2⟩ := unmarkAll_spec (unmarkAll f md.driverPorts) md.monitorPorts
  obtain ⟨c1, c2⟩ := unmarkAll_spec (unmarkAll (unmarkAll f md.driverPorts) md.monitorPorts)
    md.driverHooks
  obtain ⟨d1, d2⟩ := unmarkAll_spec (unmarkAll (unmarkAll (unmarkAll f md.driverPorts)
    md.monitorPorts) md.driverHooks) md.monitorHooks
  refine ⟨fun i => ?_, d2.trans (c2.trans (b2.trans a2))⟩
  show (unmarkAll _ _).matched i = _
  rw [d1, c1, b1, a1]
  unfold Model.pathIds
  simp only [List.mem_append]
  by_cases h1 : i ∈ md.driverPorts.map PathItem.id <;>
    by_cases h2 : i ∈ md.monitorPorts.map PathItem.id <;>
    by_cases h3 : i ∈ md.driverHooks.map PathItem.id <;>
    by_cases h4 : i ∈ md.monitorHooks.map PathItem.id <;> simp only [h1, h2, h3, h4] <;> simp

theorem mem_ids_iff {md : Model} {i : Nat} : i ∈ md.ids ↔
    i ∈ md.agentHooks.map AgentHook.id ∨ i ∈ md.pathIds ∨ i ∈ md.agentPorts.map AgentPort.id := by
  unfold Model.ids Model.pathIds
  simp only [List.mem_append]
  constructor
  · rintro (h | h | h | h | h | h)
    · exact .inl h
    · exact .inr (.inl (.inl (.inr h)))
    · exact .inr (.inl (.inr h))
    · exact .inr (.inr h)
    · exact .inr (.inl (.inl (.inl (.inl h))))
    · exact .inr (.inl (.inl (.inl (.inr h))))
  · rintro (h | (((h | h) | h) | h) | h)
    · exact .inl h
    · exact .inr (.inr (.inr (.inr (.inl h))))
    · exact .inr (.inr (.inr (.inr (.inr h))))
    · exact .inr (.inl h)
    · exact .inr (.inr (.inl h))
    · exact .inr (.inr (.inr (.inl h)))

/-- The result of `attach` depends on the marks of the model's own objects only. -/
theorem attach_mono_of {env : Env} {md : Model} {w w' : World} {e x : Nat}
    (hm : ∀ i ∈ md.ids, w.flags.matched i = true → w'.flags.matched i = true)
    (hh : ∀ h ∈ md.agentHooks, ∀ j, w.flags.methods h.id j = true → w'.flags.methods h.id j = true)
    (hp : ∀ h ∈ md.agentPorts, ∀ j, w.flags.methods h.id j = true → w'.flags.methods h.id j = true)
    (h : (attach env md w e x).2 = none) : (attach env md w' e x).2 = none := by
  rw [attach_err, ensureModelMatch_none, ensureAllMatched_none] at h ⊢
  obtain ⟨f1, f2⟩ := injectAll_flags md x env.methods w.flags (w.envs e)
  obtain ⟨g1, g2⟩ := injectAll_flags md x env.methods w'.flags (w'.envs e)
  obtain ⟨i1, i2, i3, i4⟩ := @mem_ids md
  have h1 : ∀ i ∈ md.ids, (injectAll md x env.methods w.flags (w.envs e)).1.matched i = true →
      (injectAll md x env.methods w'.flags (w'.envs e)).1.matched i = true := fun i hi hx =>
    (g1 i).2 (((f1 i).1 hx).imp_left (hm i hi))
  obtain ⟨⟨a1, a2, a3, a4⟩, a5⟩ := h
  exact ⟨⟨fun h hx j hj => (g2 _ j).2 (((f2 _ j).1 (a1 h hx j hj)).imp_left (hh h hx j)),
    fun k x hx => h1 _ (i3 k x hx) (a2 k x hx),
    fun p hx => ⟨h1 _ (i2 p hx) (a3 p hx).1, fun j hj =>
      (g2 _ j).2 (((f2 _ j).1 ((a3 p hx).2 j hj)).imp_left (hp p hx j))⟩,
    fun k x hx => h1 _ (i4 k x hx) (a4 k x hx)⟩, a5⟩

theorem attach_cleared (env : Env) (md : Model) (w : World) (e x : Nat) (hm : md.Wf)
    (hc : Cleared md w.flags) : (attach env md w e x).2 = none ↔ Accepts env md := by
  rw [← attach_accepts env md World.init e x hm (fun i _ => ⟨rfl, fun _ => rfl⟩)]
  obtain ⟨c1, c2, c3⟩ := hc
  constructor
  · refine attach_mono_of (fun i hi h => ?_) (fun h hh j hx => ?_) (fun h hh j hx => ?_)
    · rw [c1 i hi] at h; cases h
    · rw [c2 h hh j] at hx; cases hx
    · rw [c3 h hh j] at hx; cases hx
  · refine attach_mono_of (fun i hi h => ?_) (fun h hh j hx => ?_) (fun h hh j hx => ?_)
    · cases h
    · cases hx
    · cases hx

/-! ### C112 -/

/-- **C112**, models without agent hooks: `clear_matched` returns, no hook or port of the model is
marked after it, and the marks of all other objects are what they were.  Missing: models with an agent
hook (`C112_agent_hook_violated`). -/
theorem C112_clears_partial (md : Model) (f : Flags) (hn : md.agentHooks = []) :
    (clearMatched md f).2 = none ∧ Cleared md (clearMatched md f).1 ∧
      (∀ i, i ∉ md.ids → (clearMatched md f).1.matched i = f.matched i) ∧
      ∀ i, i ∉ md.agentPorts.map AgentPort.id → (clearMatched md f).1.methods i = f.methods i := by
  obtain ⟨l1, l2⟩ := loops_spec md f
  have he : clearMatched md f = (clearAgentPorts (unmarkAll (unmarkAll (unmarkAll
      (unmarkAll f md.driverPorts) md.monitorPorts) md.driverHooks) md.monitorHooks)
      md.agentPorts, none) := by
    unfold clearMatched
    rw [hn]
    rfl
  obtain ⟨p1, p2⟩ := clearAgentPorts_spec (unmarkAll (unmarkAll (unmarkAll
      (unmarkAll f md.driverPorts) md.monitorPorts) md.driverHooks) md.monitorHooks) md.agentPorts
  rw [he]
  refine ⟨rfl, ⟨fun i hi => ?_, fun h hh => ?_, fun p hp j => ?_⟩, fun i hi => ?_, fun i hi => ?_⟩
  · show (clearAgentPorts _ _).matched i = false
    rw [p1, l1]
    rcases mem_ids_iff.1 hi with h | h | h
    · rw [hn] at h; cases h
    · simp [h]
    · rw [if_pos h]
  · rw [hn] at hh; cases hh
  · show (clearAgentPorts _ _).methods p.id j = false
    rw [p2, if_pos (List.mem_map_of_mem hp)]
  · show (clearAgentPorts _ _).matched i = _
    rw [mem_ids_iff] at hi
    rw [p1, l1, if_neg fun h => hi (.inr (.inr h)), if_neg fun h => hi (.inr (.inl h))]
  · funext j
    show (clearAgentPorts _ _).methods i j = _
    rw [p2, if_neg hi, l2]

/-- **C112 is false**: if the model has an agent hook, `clear_matched` raises `AttributeError`; the
driver and monitor hooks and ports and the first agent hook have lost their marks, and every other
mark, among them those of the methods of agent hooks and all those of agent ports, is what it was. -/
theorem C112_agent_hook_violated (md : Model) (f : Flags) (h : AgentHook) (hs : List AgentHook)
    (hn : md.agentHooks = h :: hs) :
    (clearMatched md f).2 = some .attribute ∧
      (∀ i, (clearMatched md f).1.matched i =
        if i = h.id ∨ i ∈ md.pathIds then false else f.matched i) ∧
      (clearMatched md f).1.methods = f.methods := by
  obtain ⟨l1, l2⟩ := loops_spec md f
  have he : clearMatched md f = ((unmarkAll (unmarkAll (unmarkAll
      (unmarkAll f md.driverPorts) md.monitorPorts) md.driverHooks) md.monitorHooks).unmark h.id,
      some .attribute) := by
    unfold clearMatched
    rw [hn]
    rfl
  rw [he]
  refine ⟨rfl, fun i => ?_, l2⟩
  show (if i = h.id then false else (unmarkAll _ _).matched i) = _
  rw [l1]
  by_cases h1 : i = h.id <;> by_cases h2 : i ∈ md.pathIds <;> simp [h1, h2]

/-- **C112**: `clear_matched` raises iff the model has an agent hook. -/
theorem C112_raises_iff (md : Model) (f : Flags) :
    (clearMatched md f).2 = some .attribute ↔ md.agentHooks ≠ [] := by
  cases hn : md.agentHooks with
  | nil => simp [(C112_clears_partial md f hn).1]
  | cons h hs => simp [(C112_agent_hook_violated md f h hs hn).1]

/-- **C112**, the use of it for models without agent hooks: after any history in which the model was
given to `attach`, `clear_matched` makes the next `attach` accept exactly the models that fit,
which without it is false (`C32_stale_violated`).  Missing: models with an agent hook. -/
theorem C112_reattach_partial (env : Nat → Env) (md : Nat → Model) (ops : List COp) (e x : Nat)
    (hm : (md x).Wf) (hn : (md x).agentHooks = []) (ha : ∃ e', COp.attach e' x ∈ ops) :
    (attach (env e) (md x) (crun env md CWorld.init (ops ++ [.clear x])).world e x).2 = none ↔
      Accepts (env e) (md x) := by
  have hc : ∀ (ops : List COp) (c : CWorld), (x ∈ c.collected ∨ ∃ e', COp.attach e' x ∈ ops) →
      x ∈ (crun env md c ops).collected := by
    intro ops
    induction ops with
    | nil =>
      rintro c (h | ⟨e', h⟩)
      · exact h
      · cases h
    | cons op ops ih =>
      intro c h
      refine ih (cstep env md c op) ?_
      have hkeep : x ∈ c.collected → x ∈ (cstep env md c op).collected := by
        intro hx
        cases op with
        | attach e' y => exact List.mem_cons_of_mem _ hx
        | unattach e' y => exact hx
        | clear y =>
          show x ∈ (if y ∈ c.collected then _ else c).collected
          split
          · exact hx
          · exact hx
      rcases h with h | ⟨e', h⟩
      · exact .inl (hkeep h)
      · rcases List.mem_cons.1 h with h | h
        · subst h
          exact .inl List.mem_cons_self
        · exact .inr ⟨e', h⟩
  have hc := hc ops CWorld.init (.inr ha)
  have hr : crun env md CWorld.init (ops ++ [.clear x]) =
      cstep env md (crun env md CWorld.init ops) (.clear x) := by
    unfold crun
    rw [List.foldl_append]
    rfl
  have hs : cstep env md (crun env md CWorld.init ops) (.clear x) =
      ⟨{ (crun env md CWorld.init ops).world with
        flags := (clearMatched (md x) (crun env md CWorld.init ops).world.flags).1 },
        (crun env md CWorld.init ops).collected⟩ := if_pos hc
  rw [hr, hs]
  exact attach_cleared _ _ _ _ _ hm (C112_clears_partial (md x) _ hn).2.1

/-! ### Cases -/

/-- A driver hook for `a.m`, a monitor port for `a.n`, and an agent port that lists `a.m`. -/
def hookModel : Model :=
  { emptyModel with driverHooks := [⟨0, "a.m".toList⟩], monitorPorts := [⟨1, "a.n".toList⟩],
                    agentPorts := [⟨2, "a".toList, "x".toList, [], ["a.m".toList]⟩] }

/-- `C112_clears_partial`, `C112_reattach_partial`: the marks are there after `attach`; `envB` accepts the
model then, but not after `clear_matched`. -/
example :
    let w := crun (fun i => if i = 0 then envA else envB) (fun _ => hookModel) CWorld.init [.attach 0 0]
    let w' := crun (fun i => if i = 0 then envA else envB) (fun _ => hookModel) CWorld.init
      [.attach 0 0, .clear 0]
    hookModel.agentHooks = [] ∧ w.world.flags.matched 0 = true ∧ w.world.flags.methods 2 0 = true ∧
      (attach envB hookModel w.world 1 0).2 = none ∧
      (attach envB hookModel w'.world 1 0).2 = some .value := by decide +kernel

example : hookModel.Wf := ⟨by decide, by decide⟩

/-- `C112_agent_hook_violated`: a model with an agent hook that lists `a.m` and an agent port; `envB`
accepts it after `clear_matched` though it does not fit. -/
example :
    let md : Model := { emptyModel with agentHooks := [⟨0, [], [], ["a.m".toList]⟩] }
    let env := fun i => if i = 0 then envA else envB
    let w := crun env (fun _ => md) CWorld.init [.attach 0 0, .clear 0]
    (attach envB md World.init 1 0).2 = some .value ∧
      (clearMatched md (attach envA md World.init 0 0).1.flags).2 = some .attribute ∧
      (attach envB md w.world 1 0).2 = none := by decide +kernel

end Toffee.Attach
