import Verif.Lemmas.Attach

/-! Attaching models (`toffee/env.py`, `toffee/model.py`): C29, C30, C31, C32, C33. -/

namespace Toffee.Attach

open Toffee.Paths (Name)

/-! ### Specification -/

/-- Names of attributes: no dots, not empty; the methods of an environment are distinct. -/
structure Env.Wf (e : Env) : Prop where
  methods : e.methods.Nodup
  agentName : ∀ a ∈ e.agents, a.name ≠ [] ∧ '.' ∉ a.name
  attrs : ∀ a ∈ e.agents, a.name ∈ e.attrs

/-- All objects of a model. -/
def Model.ids (md : Model) : List Nat :=
  md.agentHooks.map AgentHook.id ++ (md.driverHooks.map PathItem.id ++
    (md.monitorHooks.map PathItem.id ++ (md.agentPorts.map AgentPort.id ++
      (md.driverPorts.map PathItem.id ++ md.monitorPorts.map PathItem.id))))

/-- The hooks and ports of a model are different objects, and the ports have names. -/
structure Model.Wf (md : Model) : Prop where
  ids : md.ids.Nodup
  names : ∀ p ∈ md.agentPorts, p.name ≠ []

/-- The hooks (or ports) `xs` name methods of the kind, each at most one of them. -/
def PathsFit (e : Env) (k : Kind) (xs : List PathItem) : Prop :=
  (xs.map PathItem.path).Nodup ∧ ∀ x ∈ xs, ∃ m ∈ e.methods, m.kind = k ∧ m.path = x.path

/-- There is such an agent. -/
def Env.hasAgent (e : Env) (n : Name) : Prop := ∃ a ∈ e.agents, a.name = n

/-- There is a method with this path. -/
def Env.hasMethod (e : Env) (p : Name) : Prop := ∃ m ∈ e.methods, m.path = p

/-- The agents an agent port names: the one given, those listed, or, if nothing is given, the one it
is called after. -/
def AgentPort.named (p : AgentPort) : List Name :=
  if p.agent ≠ [] then p.agent :: p.agents
  else if p.agents = [] ∧ p.methods = [] then [p.name] else p.agents

/-- The agents an agent hook names. -/
def AgentHook.named (h : AgentHook) : List Name :=
  if h.agent ≠ [] then h.agent :: h.agents else h.agents

/-- Everything the model names exists, and every driver/monitor hook or port has a method of its
own. -/
structure Fits (e : Env) (md : Model) : Prop where
  hooks : ∀ k, PathsFit e k (md.hooks k)
  ports : ∀ k, PathsFit e k (md.ports k)
  portMatch : ∀ p ∈ md.agentPorts, ∃ m ∈ e.methods, m.agent ∈ p.named ∨ m.path ∈ p.methods
  hookAgents : ∀ h ∈ md.agentHooks, ∀ a ∈ h.named, e.hasAgent a
  hookMethods : ∀ h ∈ md.agentHooks, ∀ p ∈ h.methods, e.hasMethod p
  portAgents : ∀ p ∈ md.agentPorts, ∀ a ∈ p.named, e.hasAgent a
  portMethods : ∀ p ∈ md.agentPorts, ∀ x ∈ p.methods, e.hasMethod x

/-- Every listed method exists, is listed once, and is not also covered by an agent. -/
def MethodsOk (e : Env) (key : Name) (agents methods : List Name) : Prop :=
  methods.Nodup ∧ ∀ p ∈ methods, ∃ m ∈ e.methods, m.path = p ∧ ¬ ByAgent key agents m

/-- What `attach` really demands of a new model. -/
structure Accepts (e : Env) (md : Model) : Prop where
  hooks : ∀ k, PathsFit e k (md.hooks k)
  ports : ∀ k, PathsFit e k (md.ports k)
  portMatch : ∀ p ∈ md.agentPorts, ∃ m ∈ e.methods, p.covers m
  hookMethods : ∀ h ∈ md.agentHooks, MethodsOk e h.agent h.agents h.methods
  portMethods : ∀ p ∈ md.agentPorts, MethodsOk e p.key p.agents p.methods
  hookAttrs : ∀ h ∈ md.agentHooks, ∀ a ∈ h.named, a ∈ e.attrs
  portAttrs : ∀ p ∈ md.agentPorts, p.name ∈ e.attrs ∧ ∀ a ∈ p.agents, a ∈ e.attrs

/-- No mark of the model's hooks and ports is set: the model and its class are new. -/
def Fresh (md : Model) (f : Flags) : Prop :=
  ∀ i ∈ md.ids, f.matched i = false ∧ ∀ j, f.methods i j = false

/-! ### Identities -/

structure Apart (md : Model) : Prop where
  agentHook : ∀ h ∈ md.agentHooks, ∀ h' ∈ md.agentHooks, h.id = h'.id → h = h'
  agentPort : ∀ p ∈ md.agentPorts, ∀ p' ∈ md.agentPorts, p.id = p'.id → p = p'
  hook : ∀ k k', ∀ x ∈ md.hooks k, ∀ x' ∈ md.hooks k', x.id = x'.id → k = k' ∧ x = x'
  port : ∀ k k', ∀ x ∈ md.ports k, ∀ x' ∈ md.ports k', x.id = x'.id → k = k' ∧ x = x'
  ahap : ∀ h ∈ md.agentHooks, ∀ p ∈ md.agentPorts, h.id ≠ p.id
  ahh : ∀ h ∈ md.agentHooks, ∀ k, ∀ x ∈ md.hooks k, h.id ≠ x.id
  ahp : ∀ h ∈ md.agentHooks, ∀ k, ∀ x ∈ md.ports k, h.id ≠ x.id
  aph : ∀ p ∈ md.agentPorts, ∀ k, ∀ x ∈ md.hooks k, p.id ≠ x.id
  app : ∀ p ∈ md.agentPorts, ∀ k, ∀ x ∈ md.ports k, p.id ≠ x.id
  hp : ∀ k k', ∀ x ∈ md.hooks k, ∀ y ∈ md.ports k', x.id ≠ y.id

theorem inj_of_nodup {α : Type} {f : α → Nat} {l : List α} (h : (l.map f).Nodup) {a b : α}
    (ha : a ∈ l) (hb : b ∈ l) (hab : f a = f b) : a = b := by
  obtain ⟨i, hi, rfl⟩ := List.getElem_of_mem ha
  obtain ⟨j, hj, rfl⟩ := List.getElem_of_mem hb
  have : (l.map f)[i]'(by simpa using hi) = (l.map f)[j]'(by simpa using hj) := by simpa using hab
  have := (List.getElem_inj h).1 this
  subst this
  rfl

theorem apart {md : Model} (h : md.ids.Nodup) : Apart md := by
  unfold Model.ids at h
  obtain ⟨a1, h, d1⟩ := List.nodup_append.1 h
  obtain ⟨a2, h, d2⟩ := List.nodup_append.1 h
  obtain ⟨a3, h, d3⟩ := List.nodup_append.1 h
  obtain ⟨a4, h, d4⟩ := List.nodup_append.1 h
  obtain ⟨a5, a6, d5⟩ := List.nodup_append.1 h
  simp only [List.mem_append] at d1 d2 d3 d4
  refine ⟨fun x hx y hy => inj_of_nodup a1 hx hy, fun x hx y hy => inj_of_nodup a4 hx hy,
    ?_, ?_, ?_, ?_, ?_, ?_, ?_, ?_⟩
  · rintro (_ | _) (_ | _) x hx y hy hxy
    · exact ⟨rfl, inj_of_nodup a2 hx hy hxy⟩
    · exact absurd hxy (d2 _ (List.mem_map_of_mem hx) _ (.inl (List.mem_map_of_mem hy)))
    · exact absurd hxy.symm (d2 _ (List.mem_map_of_mem hy) _ (.inl (List.mem_map_of_mem hx)))
    · exact ⟨rfl, inj_of_nodup a3 hx hy hxy⟩
  · rintro (_ | _) (_ | _) x hx y hy hxy
    · exact ⟨rfl, inj_of_nodup a5 hx hy hxy⟩
    · exact absurd hxy (d5 _ (List.mem_map_of_mem hx) _ (List.mem_map_of_mem hy))
    · exact absurd hxy.symm (d5 _ (List.mem_map_of_mem hy) _ (List.mem_map_of_mem hx))
    · exact ⟨rfl, inj_of_nodup a6 hx hy hxy⟩
  · intro x hx y hy
    exact d1 _ (List.mem_map_of_mem hx) _ (.inr (.inr (.inl (List.mem_map_of_mem hy))))
  · rintro x hx (_ | _) y hy
    · exact d1 _ (List.mem_map_of_mem hx) _ (.inl (List.mem_map_of_mem hy))
    · exact d1 _ (List.mem_map_of_mem hx) _ (.inr (.inl (List.mem_map_of_mem hy)))
  · rintro x hx (_ | _) y hy
    · exact d1 _ (List.mem_map_of_mem hx) _ (.inr (.inr (.inr (.inl (List.mem_map_of_mem hy)))))
    · exact d1 _ (List.mem_map_of_mem hx) _ (.inr (.inr (.inr (.inr (List.mem_map_of_mem hy)))))
  · rintro x hx (_ | _) y hy h
    · exact d2 _ (List.mem_map_of_mem hy) _ (.inr (.inl (List.mem_map_of_mem hx))) h.symm
    · exact d3 _ (List.mem_map_of_mem hy) _ (.inl (List.mem_map_of_mem hx)) h.symm
  · rintro x hx (_ | _) y hy
    · exact d4 _ (List.mem_map_of_mem hx) _ (.inl (List.mem_map_of_mem hy))
    · exact d4 _ (List.mem_map_of_mem hx) _ (.inr (List.mem_map_of_mem hy))
  · rintro (_ | _) (_ | _) x hx y hy
    · exact d2 _ (List.mem_map_of_mem hx) _ (.inr (.inr (.inl (List.mem_map_of_mem hy))))
    · exact d2 _ (List.mem_map_of_mem hx) _ (.inr (.inr (.inr (List.mem_map_of_mem hy))))
    · exact d3 _ (List.mem_map_of_mem hx) _ (.inr (.inl (List.mem_map_of_mem hy)))
    · exact d3 _ (List.mem_map_of_mem hx) _ (.inr (.inr (List.mem_map_of_mem hy)))

theorem mem_ids {md : Model} : (∀ h ∈ md.agentHooks, h.id ∈ md.ids) ∧
    (∀ p ∈ md.agentPorts, p.id ∈ md.ids) ∧ (∀ k, ∀ x ∈ md.hooks k, x.id ∈ md.ids) ∧
    (∀ k, ∀ x ∈ md.ports k, x.id ∈ md.ids) := by
  unfold Model.ids
  simp only [List.mem_append]
  refine ⟨fun h hh => .inl (List.mem_map_of_mem hh),
    fun h hh => .inr (.inr (.inr (.inl (List.mem_map_of_mem hh)))), ?_, ?_⟩
  · rintro (_ | _) x hx
    · exact .inr (.inl (List.mem_map_of_mem hx))
    · exact .inr (.inr (.inl (List.mem_map_of_mem hx)))
  · rintro (_ | _) x hx
    · exact .inr (.inr (.inr (.inr (.inl (List.mem_map_of_mem hx)))))
    · exact .inr (.inr (.inr (.inr (.inr (List.mem_map_of_mem hx)))))

theorem found_mem {xs : List PathItem} {p : Name} {i : Nat} (h : Found xs p i) :
    ∃ x ∈ xs, x.path = p ∧ i = x.id := by
  obtain ⟨x, hx, hi⟩ := h
  exact ⟨x, List.mem_of_find?_eq_some hx, by simpa using List.find?_some hx, hi⟩

theorem hit_ids {md : Model} {m : Method} {i : Nat} (h : Hit md m i) : i ∈ md.ids := by
  obtain ⟨a, b, c, d⟩ := @mem_ids md
  rcases h with ⟨h, hh, rfl, _⟩ | ⟨h, hh, rfl, _⟩ | h | h
  · exact a h hh
  · exact b h hh
  · obtain ⟨x, hx, _, rfl⟩ := found_mem h
    exact c _ x hx
  · obtain ⟨x, hx, _, rfl⟩ := found_mem h
    exact d _ x hx

theorem mhit_ids {md : Model} {m : Method} {i j : Nat} (h : MHit md m i j) : i ∈ md.ids := by
  obtain ⟨a, b, c, d⟩ := @mem_ids md
  rcases h with ⟨h, hh, rfl, _⟩ | ⟨h, hh, rfl, _⟩
  · exact a h hh
  · exact b h hh

/-! ### What is marked -/

theorem hit_hook {md : Model} (ha : Apart md) {m : Method} {k : Kind} {x : PathItem}
    (hx : x ∈ md.hooks k) : Hit md m x.id ↔
      m.kind = k ∧ ((md.hooks k).find? fun y => y.path = m.path) = some x := by
  constructor
  · rintro (⟨h, hh, he, _⟩ | ⟨h, hh, he, _⟩ | ⟨y, hy, he⟩ | h)
    · exact absurd he.symm (ha.ahh h hh k x hx)
    · exact absurd he.symm (ha.aph h hh k x hx)
    · obtain ⟨rfl, rfl⟩ := ha.hook _ _ _ hx _ (List.mem_of_find?_eq_some hy) he
      exact ⟨rfl, hy⟩
    · obtain ⟨y, hy, _, he⟩ := found_mem h
      exact absurd he (ha.hp _ _ x hx y hy)
  · rintro ⟨rfl, h⟩
    exact .inr (.inr (.inl ⟨x, h, rfl⟩))

theorem hit_port {md : Model} (ha : Apart md) {m : Method} {k : Kind} {x : PathItem}
    (hx : x ∈ md.ports k) : Hit md m x.id ↔
      m.kind = k ∧ ((md.ports k).find? fun y => y.path = m.path) = some x := by
  constructor
  · rintro (⟨h, hh, he, _⟩ | ⟨h, hh, he, _⟩ | h | ⟨y, hy, he⟩)
    · exact absurd he.symm (ha.ahp h hh k x hx)
    · exact absurd he.symm (ha.app h hh k x hx)
    · obtain ⟨y, hy, _, he⟩ := found_mem h
      exact absurd he.symm (ha.hp _ _ y hy x hx)
    · obtain ⟨rfl, rfl⟩ := ha.port _ _ _ hx _ (List.mem_of_find?_eq_some hy) he
      exact ⟨rfl, hy⟩
  · rintro ⟨rfl, h⟩
    exact .inr (.inr (.inr ⟨x, h, rfl⟩))

theorem hit_agentPort {md : Model} (ha : Apart md) {m : Method} {p : AgentPort}
    (hp : p ∈ md.agentPorts) : Hit md m p.id ↔ p.covers m := by
  constructor
  · rintro (⟨h, hh, he, _⟩ | ⟨h, hh, he, hc⟩ | h | h)
    · exact absurd he.symm (ha.ahap h hh p hp)
    · obtain rfl := ha.agentPort _ hp _ hh he
      exact hc
    · obtain ⟨y, hy, _, he⟩ := found_mem h
      exact absurd he (ha.aph p hp _ y hy)
    · obtain ⟨y, hy, _, he⟩ := found_mem h
      exact absurd he (ha.app p hp _ y hy)
  · intro h
    exact .inr (.inl ⟨p, hp, rfl, h⟩)

theorem mhit_hook {md : Model} (ha : Apart md) {m : Method} {h : AgentHook} {j : Nat}
    (hh : h ∈ md.agentHooks) : MHit md m h.id j ↔ HMark h m j := by
  constructor
  · rintro (⟨h', hh', he, hm⟩ | ⟨p, hp, he, _⟩)
    · obtain rfl := ha.agentHook _ hh _ hh' he
      exact hm
    · exact absurd he (ha.ahap h hh p hp)
  · intro hm
    exact .inl ⟨h, hh, rfl, hm⟩

theorem mhit_port {md : Model} (ha : Apart md) {m : Method} {p : AgentPort} {j : Nat}
    (hp : p ∈ md.agentPorts) : MHit md m p.id j ↔ PMark p m j := by
  constructor
  · rintro (⟨h, hh, he, _⟩ | ⟨p', hp', he, hm⟩)
    · exact absurd he.symm (ha.ahap h hh p hp)
    · obtain rfl := ha.agentPort _ hp _ hp' he
      exact hm
  · intro hm
    exact .inr ⟨p, hp, rfl, hm⟩

theorem pathsFit_iff {e : Env} {k : Kind} {xs : List PathItem} (hid : (xs.map PathItem.id).Nodup) :
    PathsFit e k xs ↔ ∀ x ∈ xs, ∃ m ∈ e.methods, m.kind = k ∧
      (xs.find? fun y => y.path = m.path) = some x := by
  constructor
  · rintro ⟨hnd, h⟩ x hx
    obtain ⟨m, hm, hk, hp⟩ := h x hx
    refine ⟨m, hm, hk, ?_⟩
    cases hf : xs.find? fun y => y.path = m.path with
    | none => exact absurd (List.find?_eq_none.1 hf x hx) (by simp [hp])
    | some y =>
      congr 1
      have hy : y.path = m.path := by simpa using List.find?_some hf
      have hy' := List.mem_of_find?_eq_some hf
      obtain ⟨i, hi, rfl⟩ := List.getElem_of_mem hx
      obtain ⟨j, hj, rfl⟩ := List.getElem_of_mem hy'
      have h3 : (xs.map PathItem.path)[j]'(by simpa using hj) =
          (xs.map PathItem.path)[i]'(by simpa using hi) := by simpa using hy.trans hp
      have := (List.getElem_inj hnd).1 h3
      subst this
      rfl
  · intro h
    refine ⟨?_, fun x hx => ?_⟩
    · rw [List.nodup_iff_pairwise_ne, List.pairwise_map]
      have hid' : xs.Pairwise fun a b => a.id ≠ b.id := by
        rw [List.nodup_iff_pairwise_ne, List.pairwise_map] at hid
        exact hid
      refine hid'.imp_of_mem fun {a b} ha hb hne hp => hne ?_
      obtain ⟨m, _, _, hm⟩ := h a ha
      obtain ⟨m', _, _, hm'⟩ := h b hb
      have h1 : a.path = m.path := by simpa using List.find?_some hm
      have h2 : b.path = m'.path := by simpa using List.find?_some hm'
      have : m.path = m'.path := h1.symm.trans (hp.trans h2)
      rw [this, hm'] at hm
      cases hm
      rfl
    · obtain ⟨m, h1, h2, h3⟩ := h x hx
      exact ⟨m, h1, h2, (by simpa using List.find?_some h3 : x.path = m.path).symm⟩

theorem methodsOk_iff {e : Env} {key : Name} {agents methods : List Name} :
    MethodsOk e key agents methods ↔ ∀ j, j < methods.length → ∃ m ∈ e.methods,
      ¬ ByAgent key agents m ∧ m.path ∈ methods ∧ j = methods.idxOf m.path := by
  constructor
  · rintro ⟨hnd, h⟩ j hj
    obtain ⟨m, hm, hp, hb⟩ := h _ (List.getElem_mem hj)
    exact ⟨m, hm, hb, hp ▸ List.getElem_mem hj, by rw [hp, List.Nodup.idxOf_getElem hnd]⟩
  · intro h
    constructor
    · rw [List.nodup_iff_pairwise_ne, List.pairwise_iff_getElem]
      intro i j hi hj hij heq
      obtain ⟨m, _, _, hm, hi'⟩ := h i hi
      obtain ⟨m', _, _, hm', hj'⟩ := h j hj
      have e1 : methods[i] = m.path := by
        simp only [hi', List.getElem_idxOf]
      have e2 : methods[j] = m'.path := by
        simp only [hj', List.getElem_idxOf]
      rw [e1, e2] at heq
      rw [heq] at hi'
      omega
    · intro p hp
      obtain ⟨j, hj, rfl⟩ := List.getElem_of_mem hp
      obtain ⟨m, h1, h2, h3, h4⟩ := h j hj
      refine ⟨m, h1, ?_, h2⟩
      subst h4
      rw [List.getElem_idxOf]

/-! ### C29 -/

/-- The result of `attach` on a model whose class is new. -/
theorem attach_accepts (env : Env) (md : Model) (w : World) (e x : Nat) (hm : md.Wf)
    (hf : Fresh md w.flags) : (attach env md w e x).2 = none ↔ Accepts env md := by
  have ha := apart hm.ids
  obtain ⟨i1, i2, i3, i4⟩ := @mem_ids md
  obtain ⟨f1, f2⟩ := injectAll_flags md x env.methods w.flags (w.envs e)
  have g1 : ∀ i ∈ md.ids, ((injectAll md x env.methods w.flags (w.envs e)).1.matched i = true ↔
      ∃ m ∈ env.methods, Hit md m i) := fun i hi => by rw [f1, (hf i hi).1]; simp
  have g2 : ∀ i ∈ md.ids, ∀ j, ((injectAll md x env.methods w.flags (w.envs e)).1.methods i j = true ↔
      ∃ m ∈ env.methods, MHit md m i j) := fun i hi j => by rw [f2, (hf i hi).2 j]; simp
  have hid : ∀ k, ((md.hooks k).map PathItem.id).Nodup := by
    have := hm.ids
    unfold Model.ids at this
    simp only [List.nodup_append] at this
    rintro (_ | _)
    · exact this.2.1.1
    · exact this.2.1.2.1.1
  have pid : ∀ k, ((md.ports k).map PathItem.id).Nodup := by
    have := hm.ids
    unfold Model.ids at this
    simp only [List.nodup_append] at this
    rintro (_ | _)
    · exact this.2.1.2.1.2.1.2.1.1
    · exact this.2.1.2.1.2.1.2.1.2.1
  rw [attach_err, ensureModelMatch_none, ensureAllMatched_none]
  constructor
  · rintro ⟨⟨h1, h2, h3, h4⟩, h5, h6⟩
    constructor
    · intro k
      rw [pathsFit_iff (hid k)]
      intro x hx
      obtain ⟨m, hm, hh⟩ := (g1 _ (i3 k x hx)).1 (h2 k x hx)
      exact ⟨m, hm, (hit_hook ha hx).1 hh⟩
    · intro k
      rw [pathsFit_iff (pid k)]
      intro x hx
      obtain ⟨m, hm, hh⟩ := (g1 _ (i4 k x hx)).1 (h4 k x hx)
      exact ⟨m, hm, (hit_port ha hx).1 hh⟩
    · intro p hp
      obtain ⟨m, hm, hh⟩ := (g1 _ (i2 p hp)).1 (h3 p hp).1
      exact ⟨m, hm, (hit_agentPort ha hp).1 hh⟩
    · intro h hh
      rw [methodsOk_iff]
      intro j hj
      obtain ⟨m, hm, hmh⟩ := (g2 _ (i1 h hh) j).1 (h1 h hh j hj)
      exact ⟨m, hm, (mhit_hook ha hh).1 hmh⟩
    · intro p hp
      rw [methodsOk_iff]
      intro j hj
      obtain ⟨m, hm, hmh⟩ := (g2 _ (i2 p hp) j).1 ((h3 p hp).2 j hj)
      exact ⟨m, hm, (mhit_port ha hp).1 hmh⟩
    · intro h hh a han
      obtain ⟨h7, h8⟩ := h5 h hh
      unfold AgentHook.named at han
      split at han
      · rename_i hne
        rcases List.mem_cons.1 han with rfl | han
        · exact h8.resolve_left hne
        · exact h7 a han
      · exact h7 a han
    · intro p hp
      exact ⟨(h6 p hp).2.resolve_left (hm.names p hp), (h6 p hp).1⟩
  · rintro ⟨h1, h2, h3, h4, h5, h6, h7⟩
    refine ⟨⟨?_, ?_, ?_, ?_⟩, ?_, ?_⟩
    · intro h hh j hj
      obtain ⟨m, hm, hmh⟩ := methodsOk_iff.1 (h4 h hh) j hj
      exact (g2 _ (i1 h hh) j).2 ⟨m, hm, (mhit_hook ha hh).2 hmh⟩
    · intro k x hx
      obtain ⟨m, hm, hh⟩ := (pathsFit_iff (hid k)).1 (h1 k) x hx
      exact (g1 _ (i3 k x hx)).2 ⟨m, hm, (hit_hook ha hx).2 hh⟩
    · intro p hp
      refine ⟨?_, fun j hj => ?_⟩
      · obtain ⟨m, hm, hh⟩ := h3 p hp
        exact (g1 _ (i2 p hp)).2 ⟨m, hm, (hit_agentPort ha hp).2 hh⟩
      · obtain ⟨m, hm, hmh⟩ := methodsOk_iff.1 (h5 p hp) j hj
        exact (g2 _ (i2 p hp) j).2 ⟨m, hm, (mhit_port ha hp).2 hmh⟩
    · intro k x hx
      obtain ⟨m, hm, hh⟩ := (pathsFit_iff (pid k)).1 (h2 k) x hx
      exact (g1 _ (i4 k x hx)).2 ⟨m, hm, (hit_port ha hx).2 hh⟩
    · intro h hh
      have h8 := h6 h hh
      unfold AgentHook.named at h8
      by_cases hne : h.agent = []
      · simp only [hne, ne_eq, not_true_eq_false, if_false] at h8
        exact ⟨h8, .inl hne⟩
      · simp only [hne, ne_eq, not_false_eq_true, if_true, List.mem_cons] at h8
        exact ⟨fun a ha => h8 a (.inr ha), .inr (h8 _ (.inl rfl))⟩
    · intro p hp
      exact ⟨(h7 p hp).2, .inr (h7 p hp).1⟩

/-- **C29**, what `attach` accepts: `attach` on a model whose class is new succeeds iff `Accepts`. -/
theorem C29_accepts (env : Env) (md : Model) (w : World) (e x : Nat) (hm : md.Wf)
    (hf : Fresh md w.flags) : (attach env md w e x).2 = none ↔ Accepts env md :=
  attach_accepts env md w e x hm hf

/-- The models for which `Accepts` is what one expects. -/
structure Plain (env : Env) (md : Model) : Prop where
  /-- What the model names as an agent is no other attribute of the environment. -/
  hookAgents : ∀ h ∈ md.agentHooks, ∀ a ∈ h.named, a ∈ env.attrs → env.hasAgent a
  portAgents : ∀ p ∈ md.agentPorts, ∀ a ∈ p.named, a ∈ env.attrs → env.hasAgent a
  /-- Methods are listed once, and not together with their agents. -/
  hookMethods : ∀ h ∈ md.agentHooks, h.methods.Nodup ∧
    ∀ m ∈ env.methods, m.path ∈ h.methods → m.agent ∉ h.named
  portMethods : ∀ p ∈ md.agentPorts, p.methods.Nodup ∧
    ∀ m ∈ env.methods, m.path ∈ p.methods → m.agent ∉ p.named
  /-- An agent port is called like an attribute of the environment; if that is an agent, it is one
  that the port names. -/
  portName : ∀ p ∈ md.agentPorts, p.name ∈ env.attrs ∧
    (p.agent = [] → ∀ m ∈ env.methods, m.agent = p.name → m.agent ∈ p.named)
  /-- The agent that an agent port gives is an attribute. -/
  portAgent : ∀ p ∈ md.agentPorts, p.agent ∈ env.attrs ∨ p.agent = []

theorem byAgent_hook {env : Env} (he : env.Wf) {h : AgentHook} {m : Method} (hm : m ∈ env.methods) :
    ByAgent h.agent h.agents m ↔ m.agent ∈ h.named := by
  have hne : m.agent ≠ [] := by
    unfold Env.methods at hm
    obtain ⟨a, ha, hm⟩ := List.mem_flatMap.1 hm
    rcases List.mem_append.1 hm with hm | hm <;> obtain ⟨n, _, rfl⟩ := List.mem_map.1 hm <;>
      exact (he.agentName a ha).1
  unfold ByAgent AgentHook.named
  by_cases h0 : h.agent = []
  · simp [h0, hne]
  · simp [h0]

theorem byAgent_port {p : AgentPort} {m : Method}
    (hp : p.agent = [] → m.agent = p.name → m.agent ∈ p.named) :
    ByAgent p.key p.agents m ↔ m.agent ∈ p.named := by
  unfold ByAgent AgentPort.key
  by_cases h0 : p.agent = []
  · have hp := hp h0
    unfold AgentPort.named at hp ⊢
    simp only [h0, ne_eq, not_true_eq_false, if_false, if_true] at hp ⊢
    by_cases h1 : p.agents = [] ∧ p.methods = []
    · simp [h1]
    · rw [if_neg h1] at hp ⊢
      constructor
      · rintro (h | h)
        · exact hp h
        · exact h
      · exact .inr
  · unfold AgentPort.named
    simp [h0]

/-- **C29**, for plain models: `attach` on a model whose class is new succeeds iff everything it
names exists and each hook and port has its own method, and raises `ValueError` otherwise.  Missing:
models that are not `Plain`, for which it is false in both directions (`C29_rejects_violated`,
`C29_accepts_violated`, `C29_value_error_violated`). -/
theorem C29_fits_partial (env : Env) (md : Model) (w : World) (e x : Nat) (he : env.Wf) (hm : md.Wf)
    (hf : Fresh md w.flags) (hp : Plain env md) :
    ((attach env md w e x).2 = none ↔ Fits env md) := by
  rw [attach_accepts env md w e x hm hf]
  have hag : ∀ a, env.hasAgent a → a ∈ env.attrs := by
    rintro _ ⟨a, ha, rfl⟩
    exact he.attrs a ha
  constructor
  · rintro ⟨h1, h2, h3, h4, h5, h6, h7⟩
    refine ⟨h1, h2, ?_, ?_, ?_, ?_, ?_⟩
    · intro p hpp
      obtain ⟨m, hmm, hc⟩ := h3 p hpp
      refine ⟨m, hmm, ?_⟩
      rcases hc with hc | hc
      · exact .inl ((byAgent_port fun h0 => (hp.portName p hpp).2 h0 m hmm).1 hc)
      · exact .inr hc
    · intro h hh a ha
      exact hp.hookAgents h hh a ha (h6 h hh a ha)
    · intro h hh x hx
      obtain ⟨m, h8, h9, _⟩ := (h4 h hh).2 x hx
      exact ⟨m, h8, h9⟩
    · intro p hpp a ha
      refine hp.portAgents p hpp a ha ?_
      unfold AgentPort.named at ha
      split at ha
      · rename_i hne
        rcases List.mem_cons.1 ha with rfl | ha
        · exact (hp.portAgent p hpp).resolve_right hne
        · exact (h7 p hpp).2 a ha
      · split at ha
        · obtain rfl := List.mem_singleton.1 ha
          exact (h7 p hpp).1
        · exact (h7 p hpp).2 a ha
    · intro p hpp x hx
      obtain ⟨m, h8, h9, _⟩ := (h5 p hpp).2 x hx
      exact ⟨m, h8, h9⟩
  · rintro ⟨h1, h2, h3, h4, h5, h6, h7⟩
    refine ⟨h1, h2, ?_, ?_, ?_, ?_, ?_⟩
    · intro p hpp
      obtain ⟨m, hmm, hc⟩ := h3 p hpp
      refine ⟨m, hmm, ?_⟩
      rcases hc with hc | hc
      · exact .inl ((byAgent_port fun h0 => (hp.portName p hpp).2 h0 m hmm).2 hc)
      · exact .inr hc
    · intro h hh
      refine ⟨(hp.hookMethods h hh).1, fun x hx => ?_⟩
      obtain ⟨m, h8, rfl⟩ := h5 h hh x hx
      exact ⟨m, h8, rfl, fun hb => (hp.hookMethods h hh).2 m h8 hx ((byAgent_hook he h8).1 hb)⟩
    · intro p hpp
      refine ⟨(hp.portMethods p hpp).1, fun x hx => ?_⟩
      obtain ⟨m, h8, rfl⟩ := h7 p hpp x hx
      exact ⟨m, h8, rfl, fun hb => (hp.portMethods p hpp).2 m h8 hx
        ((byAgent_port fun h0 => (hp.portName p hpp).2 h0 m h8).1 hb)⟩
    · intro h hh a ha
      exact hag a (h4 h hh a ha)
    · intro p hpp
      refine ⟨(hp.portName p hpp).1, fun a ha => hag a (h6 p hpp a ?_)⟩
      unfold AgentPort.named
      split
      · exact List.mem_cons_of_mem _ ha
      · split
        · rename_i h8
          rw [h8.1] at ha
          cases ha
        · exact ha

theorem firstErr_attr {α : Type} {chk : α → Option Err} {l : List α}
    (h : ∀ a ∈ l, chk a ≠ some .attribute) : firstErr chk l ≠ some .attribute := by
  induction l with
  | nil => simp [firstErr]
  | cons a l ih =>
    rw [firstErr]
    have h1 := h a List.mem_cons_self
    cases hc : chk a with
    | none => exact ih fun b hb => h b (List.mem_cons_of_mem _ hb)
    | some e => rw [hc] at h1; exact h1

theorem andThen_attr {a b : Option Err} (h1 : a ≠ some .attribute) (h2 : b ≠ some .attribute) :
    andThen a b ≠ some .attribute := by
  cases a with
  | none => exact h2
  | some e => exact h1

/-- **C29**, the kind of exception: `attach` raises nothing but `ValueError`, provided that the
agents listed by agent ports are attributes of the environment.  Missing: without it
(`C29_value_error_violated`). -/
theorem C29_value_error_partial (env : Env) (md : Model) (w : World) (e x : Nat)
    (h : ∀ p ∈ md.agentPorts, ∀ a ∈ p.agents, a ∈ env.attrs) :
    (attach env md w e x).2 = none ∨ (attach env md w e x).2 = some .value := by
  have : (attach env md w e x).2 ≠ some .attribute := by
    rw [attach_err]
    unfold ensureModelMatch ensureAllMatched
    refine andThen_attr ?_ (andThen_attr ?_ ?_)
    · repeat' apply andThen_attr
      all_goals
        apply firstErr_attr
        intro a _
        repeat' split
        all_goals simp
    · refine firstErr_attr fun a _ => andThen_attr (firstErr_attr fun b _ => ?_) ?_ <;> split <;> simp
    · refine firstErr_attr fun p hp => andThen_attr (firstErr_attr fun b hb => ?_) ?_
      · rw [if_pos (h p hp b hb)]
        simp
      · split <;> simp
  cases hr : (attach env md w e x).2 with
  | none => exact .inl rfl
  | some err =>
    cases err with
    | value => exact .inr rfl
    | «attribute» => exact absurd hr this

/-! ### C30 -/

/-- The models that were given to `attach` of one environment, in order. -/
def tried (e : Nat) (ops : List Op) : List Nat :=
  ops.filterMap fun op =>
    match op with
    | .attach e' x => if e' = e then some x else none
    | .unattach _ _ => none

theorem run_append (env : Nat → Env) (md : Nat → Model) (w : World) (a b : List Op) :
    run env md w (a ++ b) = run env md (run env md w a) b := List.foldl_append ..

theorem tried_append (e : Nat) (a b : List Op) : tried e (a ++ b) = tried e a ++ tried e b :=
  List.filterMap_append ..

theorem snoc_ind {α : Type} {P : List α → Prop} (h0 : P []) (h1 : ∀ l a, P l → P (l ++ [a]))
    (l : List α) : P l := by
  rw [← List.reverse_reverse l]
  induction l.reverse with
  | nil => exact h0
  | cons a l ih => rw [List.reverse_cons]; exact h1 _ _ ih

/-- **C30.** After any sequence of calls, every method of every environment is wired, for every model
that was given to `attach` of this environment, to exactly the agent hooks and agent ports of the
model that name its agent or its path and to the first hook and port of its kind that resolves to
its path; and to nothing of any other model. -/
theorem C30_wiring (env : Nat → Env) (md : Nat → Model) (ops : List Op) (e x : Nat) (m : Method)
    (hm : m ∈ (env e).methods) :
    ((run env md World.init ops).envs e).info? m x =
      if x ∈ tried e ops then some (wiring (md x) m) else none := by
  induction ops using snoc_ind with
  | h0 => rfl
  | h1 ops op ih =>
    rw [run_append, tried_append]
    cases op with
    | unattach e' x' =>
      show ((run env md World.init ops).envs e).info? m x = _
      rw [ih]
      simp [tried]
    | attach e' x' =>
      show ((attach (env e') (md x') (run env md World.init ops) e' x').1.envs e).info? m x = _
      rw [attach_info, ih]
      by_cases he : e = e'
      · subst he
        by_cases hx : x = x'
        · subst hx
          simp [hm, tried]
        · rw [if_neg (by simp [hx])]
          simp [tried, hx]
      · have : ¬ e' = e := fun h => he h.symm
        rw [if_neg (by simp [he])]
        simp [tried, this]

/-- **C30**, in the words of the property: membership in the wiring. -/
theorem C30_exact (md : Model) (hm : md.Wf) (m : Method) :
    (∀ h ∈ md.agentHooks, h.id ∈ (wiring md m).agentHooks ↔
      m.agent = h.agent ∨ m.agent ∈ h.agents ∨ m.path ∈ h.methods) ∧
    (∀ p ∈ md.agentPorts, p.id ∈ (wiring md m).agentPorts ↔
      m.agent = (if p.agent = [] then p.name else p.agent) ∨ m.agent ∈ p.agents ∨
        m.path ∈ p.methods) ∧
    (∀ k, ∀ x ∈ md.hooks k, ((md.hooks k).map PathItem.path).Nodup →
      ((wiring md m).hook = some x.id ↔ m.kind = k ∧ x.path = m.path)) ∧
    (∀ k, ∀ x ∈ md.ports k, ((md.ports k).map PathItem.path).Nodup →
      ((wiring md m).port = some x.id ↔ m.kind = k ∧ x.path = m.path)) := by
  have ha := apart hm.ids
  have hfind : ∀ (xs : List PathItem) (x : PathItem), x ∈ xs → (xs.map PathItem.path).Nodup →
      ∀ p, x.path = p → (xs.find? fun y => y.path = p) = some x := by
    intro xs x hx hnd p hp
    cases hf : xs.find? fun y => y.path = p with
    | none => exact absurd (List.find?_eq_none.1 hf x hx) (by simp [hp])
    | some y =>
      congr 1
      have hy : y.path = p := by simpa using List.find?_some hf
      have hy' := List.mem_of_find?_eq_some hf
      obtain ⟨i, hi, rfl⟩ := List.getElem_of_mem hx
      obtain ⟨j, hj, rfl⟩ := List.getElem_of_mem hy'
      have h3 : (xs.map PathItem.path)[j]'(by simpa using hj) =
          (xs.map PathItem.path)[i]'(by simpa using hi) := by simpa using hy.trans hp.symm
      have := (List.getElem_inj hnd).1 h3
      subst this
      rfl
  refine ⟨?_, ?_, ?_, ?_⟩
  · intro h hh
    unfold wiring
    simp only [List.mem_map, List.mem_filter, decide_eq_true_eq]
    constructor
    · rintro ⟨h', ⟨h1, h2⟩, h3⟩
      obtain rfl := ha.agentHook _ h1 _ hh h3
      exact or_assoc.1 h2
    · intro h1
      exact ⟨h, ⟨hh, or_assoc.2 h1⟩, rfl⟩
  · intro h hh
    unfold wiring
    simp only [List.mem_map, List.mem_filter, decide_eq_true_eq]
    constructor
    · rintro ⟨h', ⟨h1, h2⟩, h3⟩
      obtain rfl := ha.agentPort _ h1 _ hh h3
      exact or_assoc.1 h2
    · intro h1
      exact ⟨h, ⟨hh, or_assoc.2 h1⟩, rfl⟩
  · intro k x hx hnd
    unfold wiring
    simp only [Option.map_eq_some_iff]
    constructor
    · rintro ⟨y, h1, h2⟩
      obtain ⟨rfl, rfl⟩ := ha.hook _ _ _ (List.mem_of_find?_eq_some h1) _ hx h2
      exact ⟨rfl, by simpa using List.find?_some h1⟩
    · rintro ⟨rfl, h1⟩
      exact ⟨x, hfind _ x hx hnd _ h1, rfl⟩
  · intro k x hx hnd
    unfold wiring
    simp only [Option.map_eq_some_iff]
    constructor
    · rintro ⟨y, h1, h2⟩
      obtain ⟨rfl, rfl⟩ := ha.port _ _ _ (List.mem_of_find?_eq_some h1) _ hx h2
      exact ⟨rfl, by simpa using List.find?_some h1⟩
    · rintro ⟨rfl, h1⟩
      exact ⟨x, hfind _ x hx hnd _ h1, rfl⟩

/-- Distinct elements in the order of their first occurrence. -/
def firsts : List Nat → List Nat
  | [] => []
  | x :: xs => x :: (firsts xs).filter fun y => y ≠ x

theorem firsts_mem {l : List Nat} {x : Nat} : x ∈ firsts l ↔ x ∈ l := by
  induction l with
  | nil => simp [firsts]
  | cons a l ih =>
    rw [firsts, List.mem_cons, List.mem_filter, ih, List.mem_cons]
    by_cases h : x = a <;> simp [h]

theorem firsts_snoc (l : List Nat) (x : Nat) :
    firsts (l ++ [x]) = if x ∈ l then firsts l else firsts l ++ [x] := by
  induction l with
  | nil => rfl
  | cons a l ih =>
    rw [List.cons_append, firsts, ih, firsts]
    by_cases ha : x = a
    · subst ha
      by_cases hl : x ∈ l
      · rw [if_pos hl, if_pos List.mem_cons_self]
      · rw [if_neg hl, if_pos List.mem_cons_self, List.filter_append]
        simp
    · by_cases hl : x ∈ l
      · rw [if_pos hl, if_pos (List.mem_cons_of_mem _ hl)]
      · rw [if_neg hl, if_neg (by simp [ha, hl]), List.filter_append]
        simp [ha]

/-- **C30**, the order: a method serves the models in the order in which they were first given to
`attach`. -/
theorem C30_order (env : Nat → Env) (md : Nat → Model) (ops : List Op) (e : Nat) (m : Method)
    (he : (env e).methods.Nodup) (hm : m ∈ (env e).methods) :
    (((run env md World.init ops).envs e).infos m).map Prod.fst = firsts (tried e ops) := by
  induction ops using snoc_ind with
  | h0 => rfl
  | h1 ops op ih =>
    rw [run_append, tried_append]
    cases op with
    | unattach e' x' =>
      show (((run env md World.init ops).envs e).infos m).map Prod.fst = _
      rw [ih]
      simp [tried]
    | attach e' x' =>
      show (((attach (env e') (md x') (run env md World.init ops) e' x').1.envs e).infos m).map
        Prod.fst = _
      by_cases hee : e = e'
      · subst hee
        rw [attach_keys he, ih]
        have : tried e [.attach e x'] = [x'] := by simp [tried]
        rw [this, firsts_snoc]
        simp only [hm, true_and, firsts_mem]
        by_cases hx : x' ∈ tried e ops
        · rw [if_neg (by simpa using hx), if_pos hx]
        · rw [if_pos hx, if_neg hx]
      · have : tried e [.attach e' x'] = [] := by
          simp only [tried, List.filterMap_cons, List.filterMap_nil]
          rw [if_neg fun h : e' = e => hee h.symm]
        rw [this, List.append_nil, ← ih]
        unfold attach
        simp only
        split <;> simp [World.setEnv, hee]

/-- The models whose `attach` to one environment returned, in order, from the outcomes of the calls. -/
def returned (e : Nat) : List (Op × Option Err) → List Nat
  | [] => []
  | (.attach e' x, none) :: l => if e' = e then x :: returned e l else returned e l
  | _ :: l => returned e l

/-- The calls of a history with their outcomes. -/
def outcomes (env : Nat → Env) (md : Nat → Model) (w : World) : List Op → List (Op × Option Err)
  | [] => []
  | .attach e x :: l => (.attach e x, (attach (env e) (md x) w e x).2) ::
      outcomes env md (attach (env e) (md x) w e x).1 l
  | .unattach e x :: l => (.unattach e x, (unattach w e x).2) :: outcomes env md (unattach w e x).1 l

theorem attach_attached (env : Env) (md : Model) (w : World) (e x e' : Nat) :
    ((attach env md w e x).1.envs e').attached = (w.envs e').attached ++
      if e' = e ∧ (attach env md w e x).2 = none then [x] else [] := by
  by_cases he : e' = e
  · subst he
    rw [attach_err]
    unfold attach
    simp only
    cases h : ensureModelMatch env md (injectAll md x env.methods w.flags (w.envs e')).1 with
    | some err =>
      simp only [World.setEnv, if_true, reduceCtorEq, and_false, if_false, List.append_nil]
      exact injectAll_attached ..
    | none =>
      simp only [World.setEnv, if_true, and_self]
      rw [injectAll_attached]
  · rw [if_neg (by simp [he]), List.append_nil]
    unfold attach
    simp only
    split <;> simp [World.setEnv, he]

/-- **C30**: `attached_models` of an environment are the models whose `attach` to it returned, in
order. -/
theorem C30_attached_models (env : Nat → Env) (md : Nat → Model) (ops : List Op) (e : Nat) :
    ((run env md World.init ops).envs e).attached = returned e (outcomes env md World.init ops) := by
  suffices H : ∀ w, ((run env md w ops).envs e).attached =
      (w.envs e).attached ++ returned e (outcomes env md w ops) from H World.init
  induction ops with
  | nil => intro w; simp [run, outcomes, returned]
  | cons op ops ih =>
    intro w
    show ((run env md (step env md w op) ops).envs e).attached = _
    rw [ih]
    cases op with
    | unattach e' x =>
      rfl
    | attach e' x =>
      simp only [step, outcomes, attach_attached, List.append_assoc]
      congr 1
      cases (attach (env e') (md x) w e' x).2 with
      | some err => simp [returned]
      | none =>
        by_cases h : e' = e
        · simp [returned, h]
        · simp [returned, h, Ne.symm h]

/-! ### C31 -/

/-- **C31**, the part that holds: a failed `attach` leaves the list of attached models, the wiring of
all other models and all other environments.  Missing: the wiring of the model itself
(`C31_failed_attach_violated`). -/
theorem C31_failed_attach_partial (env : Env) (md : Model) (w : World) (e x : Nat) (err : Err)
    (h : (attach env md w e x).2 = some err) :
    ((attach env md w e x).1.envs e).attached = (w.envs e).attached ∧
    (∀ m y, y ≠ x → ((attach env md w e x).1.envs e).info? m y = (w.envs e).info? m y) ∧
    ∀ e', e' ≠ e → (attach env md w e x).1.envs e' = w.envs e' := by
  refine ⟨?_, fun m y hy => ?_, fun e' he => ?_⟩
  · have h1 := attach_err (env := env) (md := md) (w := w) (e := e) (x := x)
    rw [h] at h1
    unfold attach
    simp only
    rw [← h1]
    simp only [World.setEnv, if_true]
    exact injectAll_attached ..
  · rw [attach_info, if_neg (by simp [hy])]
  · unfold attach
    simp only
    split <;> simp [World.setEnv, he]

/-! ### C32 -/

/-- The marks only grow. -/
def Flags.Le (f g : Flags) : Prop :=
  (∀ i, f.matched i = true → g.matched i = true) ∧
    ∀ i j, f.methods i j = true → g.methods i j = true

theorem run_flags (env : Nat → Env) (md : Nat → Model) (w : World) (ops : List Op) :
    w.flags.Le (run env md w ops).flags := by
  induction ops using snoc_ind with
  | h0 => exact ⟨fun _ h => h, fun _ _ h => h⟩
  | h1 ops op ih =>
    rw [run_append]
    cases op with
    | unattach e x => exact ih
    | attach e x =>
      show w.flags.Le (attach (env e) (md x) (run env md w ops) e x).1.flags
      rw [attach_flags]
      obtain ⟨h1, h2⟩ := injectAll_flags (md x) x (env e).methods (run env md w ops).flags
        ((run env md w ops).envs e)
      exact ⟨fun i h => (h1 i).2 (.inl (ih.1 i h)), fun i j h => (h2 i j).2 (.inl (ih.2 i j h))⟩

theorem attach_mono {env : Env} {md : Model} {w w' : World} {e x : Nat} (hle : w.flags.Le w'.flags)
    (h : (attach env md w e x).2 = none) : (attach env md w' e x).2 = none := by
  rw [attach_err, ensureModelMatch_none, ensureAllMatched_none] at h ⊢
  obtain ⟨f1, f2⟩ := injectAll_flags md x env.methods w.flags (w.envs e)
  obtain ⟨g1, g2⟩ := injectAll_flags md x env.methods w'.flags (w'.envs e)
  have h1 : ∀ i, (injectAll md x env.methods w.flags (w.envs e)).1.matched i = true →
      (injectAll md x env.methods w'.flags (w'.envs e)).1.matched i = true := fun i hi =>
    (g1 i).2 (((f1 i).1 hi).imp_left (hle.1 i))
  have h2 : ∀ i j, (injectAll md x env.methods w.flags (w.envs e)).1.methods i j = true →
      (injectAll md x env.methods w'.flags (w'.envs e)).1.methods i j = true := fun i j hi =>
    (g2 i j).2 (((f2 i j).1 hi).imp_left (hle.2 i j))
  obtain ⟨⟨a1, a2, a3, a4⟩, a5⟩ := h
  exact ⟨⟨fun h hh j hj => h2 _ _ (a1 h hh j hj), fun k x hx => h1 _ (a2 k x hx),
    fun p hp => ⟨h1 _ (a3 p hp).1, fun j hj => h2 _ _ ((a3 p hp).2 j hj)⟩,
    fun k x hx => h1 _ (a4 k x hx)⟩, a5⟩

/-- **C32**, one direction: a model that is accepted when it is the first one is accepted after any
history. -/
theorem C32_accepted (env : Nat → Env) (md : Nat → Model) (ops : List Op) (e x : Nat)
    (h : (attach (env e) (md x) World.init e x).2 = none) :
    (attach (env e) (md x) (run env md World.init ops) e x).2 = none :=
  attach_mono (run_flags env md World.init ops) h

theorem run_fresh (env : Nat → Env) (md : Nat → Model) (m : Model) (ops : List Op)
    (hd : ∀ e x, .attach e x ∈ ops → ∀ i ∈ (md x).ids, i ∉ m.ids) :
    Fresh m (run env md World.init ops).flags := by
  induction ops using snoc_ind with
  | h0 => exact fun i _ => ⟨rfl, fun _ => rfl⟩
  | h1 ops op ih =>
    have ih := ih fun e x h => hd e x (List.mem_append_left _ h)
    rw [run_append]
    cases op with
    | unattach e x => exact ih
    | attach e x =>
      show Fresh m (attach (env e) (md x) (run env md World.init ops) e x).1.flags
      have hd := hd e x (List.mem_append_right _ List.mem_cons_self)
      obtain ⟨h1, h2⟩ := injectAll_flags (md x) x (env e).methods (run env md World.init ops).flags
        ((run env md World.init ops).envs e)
      rw [attach_flags]
      intro i hi
      refine ⟨?_, fun j => ?_⟩
      · rw [Bool.eq_false_iff, ne_eq, h1, (ih i hi).1]
        rintro (h | ⟨m', _, h⟩)
        · cases h
        · exact hd i (hit_ids h) hi
      · rw [Bool.eq_false_iff, ne_eq, h2, (ih i hi).2 j]
        rintro (h | ⟨m', _, h⟩)
        · cases h
        · exact hd i (mhit_ids h) hi

/-- **C32**, the other direction for histories of other classes: whether `attach` succeeds is what
`Accepts` says if no model given to `attach` before shares a hook or a port with this one.  Missing:
histories with the same model or with other instances of its class (`C32_stale_violated`). -/
theorem C32_history_partial (env : Nat → Env) (md : Nat → Model) (ops : List Op) (e x : Nat)
    (hm : (md x).Wf) (hd : ∀ e' x', .attach e' x' ∈ ops → ∀ i ∈ (md x').ids, i ∉ (md x).ids) :
    (attach (env e) (md x) (run env md World.init ops) e x).2 = none ↔ Accepts (env e) (md x) :=
  attach_accepts _ _ _ _ _ hm (run_fresh env md (md x) ops hd)

/-! ### C33 -/

/-- **C33 is false**: `unattach` raises `AttributeError` in every state and changes nothing, so after
`attach` and `unattach` all wiring and the list of attached models are those of `attach`. -/
theorem C33_unattach_violated (w : World) (e x : Nat) :
    (unattach w e x).2 = some .attribute ∧ (unattach w e x).1 = w := ⟨rfl, rfl⟩

/-- **C33 is false**: attaching an attached model to another environment leaves it wired in the
first. -/
theorem C33_move_violated (env : Nat → Env) (md : Nat → Model) (w : World) (e e' x : Nat)
    (hne : e ≠ e') (m : Method) (hm : m ∈ (env e).methods) :
    ((run env md w [.attach e x, .attach e' x]).envs e).info? m x = some (wiring (md x) m) := by
  show ((attach (env e') (md x) (attach (env e) (md x) w e x).1 e' x).1.envs e).info? m x = _
  rw [attach_info, if_neg (by simp [hne]), attach_info, if_pos ⟨rfl, hm, rfl⟩]

/-- **C33**, the part that holds: the code that `unattach` is meant to run removes exactly the wiring
of the model.  Missing: that it is ever reached (`C33_unattach_violated`). -/
theorem C33_uninject_partial (ms : List Method) (s : EnvState) (x y : Nat) (m : Method) :
    (uninjectAll ms x s).info? m y = if m ∈ ms ∧ y = x then none else s.info? m y := by
  unfold uninjectAll EnvState.info?
  simp only
  by_cases hm : m ∈ ms
  · rw [if_pos hm]
    simp only [hm, true_and]
    induction s.infos m with
    | nil => simp
    | cons p l ih =>
      by_cases hp : p.1 = x
      · rw [List.filter_cons_of_neg (by simpa using hp), ih, List.lookup_cons, hp]
        by_cases hy : y = x
        · simp [hy]
        · have : (y == x) = false := by simpa using hy
          simp [hy, this]
      · rw [List.filter_cons_of_pos (by simpa using hp), List.lookup_cons, ih, List.lookup_cons]
        by_cases hy : y = p.1
        · subst hy
          simp [hp]
        · have : (y == p.1) = false := by simpa using hy
          simp [this]
  · rw [if_neg hm, if_neg (by simp [hm])]

/-! ### Witnesses -/

/-- An environment with the agent `a`, its driver method `m` and its monitor method `n`, and another
attribute `x`. -/
def envA : Env :=
  ⟨["a".toList, "x".toList], [⟨"a".toList, ["m".toList], ["n".toList]⟩]⟩

/-- An environment with the agent `b` with the driver method `k`, and an attribute `a`. -/
def envB : Env := ⟨["b".toList, "a".toList], [⟨"b".toList, ["k".toList], []⟩]⟩

/-- `am = DriverPort(agent_name="a", driver_name="m")`, a monitor hook for `a.n`, an agent hook for
`a`, and the agent port `a = AgentPort()`. -/
def fullModel : Model :=
  ⟨[⟨0, "a".toList, [], []⟩], [], [⟨1, "a.n".toList⟩], [⟨2, "a".toList, [], [], []⟩],
    [⟨3, "a.m".toList⟩], []⟩

def emptyModel : Model := ⟨[], [], [], [], [], []⟩

/-- `ports = AgentPort(agents=["a"])`. -/
def listedPort : Model := { emptyModel with agentPorts := [⟨0, "ports".toList, [], ["a".toList], []⟩] }

/-- `port = AgentPort("a")`. -/
def namedPort : Model := { emptyModel with agentPorts := [⟨0, "port".toList, "a".toList, [], []⟩] }

/-- `@agent_hook(agents=["a"], methods=["a.m"])`. -/
def overlapHook : Model :=
  { emptyModel with agentHooks := [⟨0, [], ["a".toList], ["a.m".toList]⟩] }

/-- `@agent_hook(methods=["a.m", "a.m"])`. -/
def twiceHook : Model :=
  { emptyModel with agentHooks := [⟨0, [], [], ["a.m".toList, "a.m".toList]⟩] }

/-- `@agent_hook(agents=["x"])`, where `x` is no agent. -/
def strayHook : Model := { emptyModel with agentHooks := [⟨0, [], ["x".toList], []⟩] }

/-- `a = AgentPort(agents=["q"])`, where there is no `q`. -/
def absentPort : Model := { emptyModel with agentPorts := [⟨0, "a".toList, [], ["q".toList], []⟩] }

theorem envA_wf : envA.Wf := ⟨by decide, by decide, by decide⟩

theorem fullModel_wf : fullModel.Wf := ⟨by decide, by decide⟩

/-- Membership in the model's hooks and ports spelled out for concrete models. -/
theorem fits_of {env : Env} {md : Model}
    (h1 : ((md.hooks .driver).map PathItem.path).Nodup ∧ ∀ x ∈ md.hooks .driver,
      ∃ m ∈ env.methods, m.kind = .driver ∧ m.path = x.path)
    (h2 : ((md.hooks .monitor).map PathItem.path).Nodup ∧ ∀ x ∈ md.hooks .monitor,
      ∃ m ∈ env.methods, m.kind = .monitor ∧ m.path = x.path)
    (h3 : ((md.ports .driver).map PathItem.path).Nodup ∧ ∀ x ∈ md.ports .driver,
      ∃ m ∈ env.methods, m.kind = .driver ∧ m.path = x.path)
    (h4 : ((md.ports .monitor).map PathItem.path).Nodup ∧ ∀ x ∈ md.ports .monitor,
      ∃ m ∈ env.methods, m.kind = .monitor ∧ m.path = x.path)
    (h5 : ∀ p ∈ md.agentPorts, ∃ m ∈ env.methods, m.agent ∈ p.named ∨ m.path ∈ p.methods)
    (h6 : ∀ h ∈ md.agentHooks, ∀ a ∈ h.named, ∃ b ∈ env.agents, b.name = a)
    (h7 : ∀ h ∈ md.agentHooks, ∀ p ∈ h.methods, ∃ m ∈ env.methods, m.path = p)
    (h8 : ∀ p ∈ md.agentPorts, ∀ a ∈ p.named, ∃ b ∈ env.agents, b.name = a)
    (h9 : ∀ p ∈ md.agentPorts, ∀ x ∈ p.methods, ∃ m ∈ env.methods, m.path = x) : Fits env md :=
  ⟨fun k => match k with | .driver => h1 | .monitor => h2,
    fun k => match k with | .driver => h3 | .monitor => h4, h5, h6, h7, h8, h9⟩

/-- **C29 is false**, in that fitting models are rejected: an agent port with a list of agents under a
name that is no attribute of the environment, an agent port for an agent under another name, an agent
hook that names an agent and one of its methods, and one that names a method twice. -/
theorem C29_rejects_violated :
    (Fits envA listedPort ∧ (attach envA listedPort World.init 0 0).2 = some .value) ∧
    (Fits envA namedPort ∧ (attach envA namedPort World.init 0 0).2 = some .value) ∧
    (Fits envA overlapHook ∧ (attach envA overlapHook World.init 0 0).2 = some .value) ∧
    (Fits envA twiceHook ∧ (attach envA twiceHook World.init 0 0).2 = some .value) := by
  refine ⟨⟨?_, by decide +kernel⟩, ⟨?_, by decide +kernel⟩, ⟨?_, by decide +kernel⟩,
    ⟨?_, by decide +kernel⟩⟩ <;> apply fits_of <;> decide +kernel

/-- **C29 is false**, in that a model that does not fit is accepted: an agent hook for an attribute
that is no agent. -/
theorem C29_accepts_violated :
    ¬ Fits envA strayHook ∧ (attach envA strayHook World.init 0 0).2 = none := by
  refine ⟨fun h => ?_, by decide +kernel⟩
  obtain ⟨a, ha, h1⟩ := h.hookAgents _ (List.mem_singleton.2 rfl) "x".toList
    (by decide +kernel)
  obtain rfl := List.mem_singleton.1 ha
  revert h1
  decide +kernel

/-- **C29 is false**, in that another exception is raised: an agent port that lists an agent that does
not exist. -/
theorem C29_value_error_violated :
    (attach envA absentPort World.init 0 0).2 = some .attribute := by decide +kernel

/-- `C29_fits_partial` and `C29_accepts` for a model with all kinds of hooks and ports. -/
example : Fits envA fullModel ∧ (attach envA fullModel World.init 0 0).2 = none ∧
    Fresh fullModel World.init.flags ∧ Plain envA fullModel := by
  have hf : Fits envA fullModel := by apply fits_of <;> decide +kernel
  refine ⟨hf, by decide +kernel, fun _ _ => ⟨rfl, fun _ => rfl⟩, ?_, ?_, ?_, ?_, ?_, ?_⟩
  · exact fun h hh a ha _ => hf.hookAgents h hh a ha
  · exact fun p hp a ha _ => hf.portAgents p hp a ha
  all_goals decide +kernel

/-- A model that does not fit: it is rejected. -/
example : (attach envB fullModel World.init 0 0).2 = some .value := by decide +kernel

/-- `C30_wiring`: what the driver method and the monitor method are wired to. -/
example : wiring fullModel ⟨.driver, "a".toList, "m".toList⟩ = ⟨[0], [2], none, some 3⟩ ∧
    wiring fullModel ⟨.monitor, "a".toList, "n".toList⟩ = ⟨[0], [2], some 1, none⟩ := by
  decide +kernel

/-- `C30_order`. -/
example : firsts (tried 0 [.attach 0 5, .attach 1 6, .attach 0 3, .attach 0 5, .unattach 0 5]) =
    [5, 3] := by decide +kernel

/-- **C31 is false**: the failed `attach` of `strict` leaves the driver method wired to its hook. -/
theorem C31_failed_attach_violated :
    let strict : Model := { emptyModel with driverHooks := [⟨0, "a.m".toList⟩, ⟨1, "a.z".toList⟩] }
    let r := attach envA strict World.init 0 0
    let m : Method := ⟨.driver, "a".toList, "m".toList⟩
    r.2 = some .value ∧ (World.init.envs 0).info? m 0 = none ∧
      (r.1.envs 0).info? m 0 = some ⟨[], [], some 0, none⟩ := by decide +kernel

/-- `C31_failed_attach_partial`. -/
example : (attach envB fullModel World.init 0 0).2 = some .value := by decide +kernel

/-- **C32 is false**: a model that `envB` rejects is accepted by `envB` after it, or another instance
of its class, was attached to `envA`. -/
theorem C32_stale_violated :
    let hook : Model := { emptyModel with driverHooks := [⟨0, "a.m".toList⟩] }
    let w := (attach envA hook World.init 0 0).1
    (attach envB hook World.init 1 0).2 = some .value ∧ (attach envB hook w 1 0).2 = none ∧
      (attach envB hook w 1 1).2 = none := by decide +kernel

/-- `C32_accepted`. -/
example : (attach envA fullModel World.init 0 0).2 = none := by decide +kernel

/-- `C32_history_partial` for a history of another class. -/
example : ∀ e' x', Op.attach e' x' ∈ [Op.attach 0 1, .unattach 0 1, .attach 1 1] →
    ∀ i ∈ ((fun x => if x = 0 then fullModel else
      { emptyModel with driverHooks := [⟨9, "a.m".toList⟩] }) x').ids, i ∉ fullModel.ids := by
  intro e' x' h
  simp only [List.mem_cons, Op.attach.injEq, reduceCtorEq, List.not_mem_nil, or_false, false_or] at h
  rcases h with ⟨rfl, rfl⟩ | ⟨rfl, rfl⟩ <;> decide +kernel

/-- `C33_move_violated`: the model is accepted by both environments, and stays in the list of the
first. -/
example :
    let w := run (fun _ => envA) (fun _ => fullModel) World.init [.attach 0 0, .attach 1 0]
    (w.envs 0).attached = [0] ∧ (w.envs 1).attached = [0] := by decide +kernel

/-- `C33_uninject_partial`. -/
example :
    let s := (attach envA fullModel World.init 0 0).1.envs 0
    let m : Method := ⟨.driver, "a".toList, "m".toList⟩
    (s.info? m 0).isSome = true ∧ (uninjectAll envA.methods 0 s).info? m 0 = none := by
  decide +kernel

end Toffee.Attach
