import Verif.Model.Attach

/-! The marks and the wiring that `attach` leaves. -/

namespace Toffee.Attach

open Toffee.Paths (Name)

/-! ### Specification -/

/-- The method belongs to the agent `key` or to one of `agents`. -/
def ByAgent (key : Name) (agents : List Name) (m : Method) : Prop := m.agent = key ∨ m.agent ∈ agents

instance (key : Name) (agents : List Name) (m : Method) : Decidable (ByAgent key agents m) := by
  unfold ByAgent; infer_instance

/-- It is named by its agent or by its path. -/
def Covers (key : Name) (agents methods : List Name) (m : Method) : Prop :=
  ByAgent key agents m ∨ m.path ∈ methods

instance (key : Name) (agents methods : List Name) (m : Method) :
    Decidable (Covers key agents methods m) := by
  unfold Covers; infer_instance

def AgentHook.covers (h : AgentHook) (m : Method) : Prop := Covers h.agent h.agents h.methods m

instance (h : AgentHook) (m : Method) : Decidable (h.covers m) := by
  unfold AgentHook.covers; infer_instance

/-- The agent an agent port names with its name. -/
def AgentPort.key (p : AgentPort) : Name := if p.agent = [] then p.name else p.agent

def AgentPort.covers (p : AgentPort) (m : Method) : Prop := Covers p.key p.agents p.methods m

instance (h : AgentPort) (m : Method) : Decidable (h.covers m) := by
  unfold AgentPort.covers; infer_instance

/-- The hooks and ports for methods of one kind. -/
def Model.hooks (md : Model) : Kind → List PathItem
  | .driver => md.driverHooks
  | .monitor => md.monitorHooks

def Model.ports (md : Model) : Kind → List PathItem
  | .driver => md.driverPorts
  | .monitor => md.monitorPorts

/-- What a method should be wired to. -/
def wiring (md : Model) (m : Method) : Info where
  agentHooks := (md.agentHooks.filter fun h => h.covers m).map AgentHook.id
  agentPorts := (md.agentPorts.filter fun p => p.covers m).map AgentPort.id
  hook := ((md.hooks m.kind).find? fun x => x.path = m.path).map PathItem.id
  port := ((md.ports m.kind).find? fun x => x.path = m.path).map PathItem.id

/-! ### Marks -/

theorem portPath_eq (p : AgentPort) : Paths.agentPortPath p.agent p.name = p.key := by
  unfold Paths.agentPortPath AgentPort.key
  split <;> simp_all

theorem contain_fst {id : Nat} {key : Name} {agents methods : List Name} {m : Method} {f : Flags} :
    (contain id key agents methods m f).1 = decide (Covers key agents methods m) := by
  unfold contain Covers ByAgent
  split
  · rename_i h; simp [h]
  · rename_i h
    split
    · rename_i h2; simp [h2]
    · rename_i h2; simp [h2, h]

theorem contain_matched {id : Nat} {key : Name} {agents methods : List Name} {m : Method} {f : Flags}
    {i : Nat} :
    (contain id key agents methods m f).2.matched i = true ↔
      f.matched i = true ∨ (i = id ∧ Covers key agents methods m) := by
  unfold contain Covers ByAgent
  by_cases hi : i = id
  · subst hi
    split
    · rename_i h; simp [h, Flags.mark]
    · rename_i h
      split
      · rename_i h2; simp [h2, Flags.mark, Flags.markMethod]
      · rename_i h2; simp [h2, h]
  · split
    · simp [hi, Flags.mark]
    · split
      · simp [hi, Flags.mark, Flags.markMethod]
      · simp [hi]

theorem contain_methods {id : Nat} {key : Name} {agents methods : List Name} {m : Method} {f : Flags}
    {i j : Nat} :
    (contain id key agents methods m f).2.methods i j = true ↔
      f.methods i j = true ∨
        (i = id ∧ ¬ ByAgent key agents m ∧ m.path ∈ methods ∧ j = methods.idxOf m.path) := by
  unfold contain ByAgent
  by_cases hi : i = id
  · subst hi
    split
    · rename_i h; simp [h, Flags.mark]
    · rename_i h
      split
      · rename_i h2
        by_cases hj : j = methods.idxOf m.path
        · simp [h, h2, hj, Flags.mark, Flags.markMethod]
        · simp [hj, Flags.mark, Flags.markMethod]
      · rename_i h2; simp [h2]
  · split
    · simp [hi, Flags.mark]
    · split
      · simp [hi, Flags.mark, Flags.markMethod]
      · simp [hi]

/-- An item that names methods by agent or path. -/
def HMark (h : AgentHook) (m : Method) (j : Nat) : Prop :=
  ¬ ByAgent h.agent h.agents m ∧ m.path ∈ h.methods ∧ j = h.methods.idxOf m.path

def PMark (p : AgentPort) (m : Method) (j : Nat) : Prop :=
  ¬ ByAgent p.key p.agents m ∧ m.path ∈ p.methods ∧ j = p.methods.idxOf m.path

theorem agentHooksFor_spec (m : Method) (hs : List AgentHook) (f : Flags) :
    (agentHooksFor m hs f).1 = (hs.filter fun h => h.covers m).map AgentHook.id ∧
    (∀ i, (agentHooksFor m hs f).2.matched i = true ↔
      f.matched i = true ∨ ∃ h ∈ hs, i = h.id ∧ h.covers m) ∧
    (∀ i j, (agentHooksFor m hs f).2.methods i j = true ↔
      f.methods i j = true ∨ ∃ h ∈ hs, i = h.id ∧ HMark h m j) := by
  induction hs generalizing f with
  | nil => simp [agentHooksFor]
  | cons h hs ih =>
    simp only [agentHooksFor]
    obtain ⟨h1, h2, h3⟩ := ih (contain h.id h.agent h.agents h.methods m f).2
    refine ⟨?_, ?_, ?_⟩
    · rw [contain_fst, h1]
      by_cases hc : h.covers m
      · rw [List.filter_cons_of_pos (by simpa using hc)]
        have : Covers h.agent h.agents h.methods m := hc
        simp [this]
      · rw [List.filter_cons_of_neg (by simpa using hc)]
        have : ¬ Covers h.agent h.agents h.methods m := hc
        simp [this]
    · intro i
      rw [h2, contain_matched]
      simp only [List.mem_cons, exists_eq_or_imp, AgentHook.covers]
      exact or_assoc
    · intro i j
      rw [h3, contain_methods]
      simp only [List.mem_cons, exists_eq_or_imp, HMark]
      exact or_assoc

theorem agentPortsFor_spec (m : Method) (hs : List AgentPort) (f : Flags) :
    (agentPortsFor m hs f).1 = (hs.filter fun h => h.covers m).map AgentPort.id ∧
    (∀ i, (agentPortsFor m hs f).2.matched i = true ↔
      f.matched i = true ∨ ∃ h ∈ hs, i = h.id ∧ h.covers m) ∧
    (∀ i j, (agentPortsFor m hs f).2.methods i j = true ↔
      f.methods i j = true ∨ ∃ h ∈ hs, i = h.id ∧ PMark h m j) := by
  induction hs generalizing f with
  | nil => simp [agentPortsFor]
  | cons h hs ih =>
    simp only [agentPortsFor, portPath_eq]
    obtain ⟨h1, h2, h3⟩ := ih (contain h.id h.key h.agents h.methods m f).2
    refine ⟨?_, ?_, ?_⟩
    · rw [contain_fst, h1]
      by_cases hc : h.covers m
      · rw [List.filter_cons_of_pos (by simpa using hc)]
        have : Covers h.key h.agents h.methods m := hc
        simp [this]
      · rw [List.filter_cons_of_neg (by simpa using hc)]
        have : ¬ Covers h.key h.agents h.methods m := hc
        simp [this]
    · intro i
      rw [h2, contain_matched]
      simp only [List.mem_cons, exists_eq_or_imp, AgentPort.covers]
      exact or_assoc
    · intro i j
      rw [h3, contain_methods]
      simp only [List.mem_cons, exists_eq_or_imp, PMark]
      exact or_assoc

/-- The item found for a path. -/
def Found (xs : List PathItem) (path : Name) (i : Nat) : Prop :=
  ∃ x, (xs.find? fun x => x.path = path) = some x ∧ i = x.id

theorem getFirst_spec (path : Name) (xs : List PathItem) (f : Flags) :
    (getFirst path xs f).1 = (xs.find? fun x => x.path = path).map PathItem.id ∧
    (∀ i, (getFirst path xs f).2.matched i = true ↔ f.matched i = true ∨ Found xs path i) ∧
    (∀ i j, (getFirst path xs f).2.methods i j = f.methods i j) := by
  induction xs with
  | nil => simp [getFirst, Found]
  | cons x xs ih =>
    rw [getFirst]
    by_cases h : x.path = path
    · rw [if_pos h]
      refine ⟨by simp [h], fun i => ?_, fun _ _ => rfl⟩
      by_cases hi : i = x.id <;> simp [Flags.mark, Found, h, hi]
    · rw [if_neg h]
      refine ⟨by simp [h, ih.1], fun i => ?_, ih.2.2⟩
      rw [ih.2.1]
      simp [Found, h]

/-- What visiting the method `m` marks. -/
def Hit (md : Model) (m : Method) (i : Nat) : Prop :=
  (∃ h ∈ md.agentHooks, i = h.id ∧ h.covers m) ∨ (∃ p ∈ md.agentPorts, i = p.id ∧ p.covers m) ∨
  Found (md.hooks m.kind) m.path i ∨ Found (md.ports m.kind) m.path i

def MHit (md : Model) (m : Method) (i j : Nat) : Prop :=
  (∃ h ∈ md.agentHooks, i = h.id ∧ HMark h m j) ∨ (∃ p ∈ md.agentPorts, i = p.id ∧ PMark p m j)

theorem info_spec (md : Model) (m : Method) (f : Flags) :
    (info md m f).1 = wiring md m ∧
    (∀ i, (info md m f).2.matched i = true ↔ f.matched i = true ∨ Hit md m i) ∧
    (∀ i j, (info md m f).2.methods i j = true ↔ f.methods i j = true ∨ MHit md m i j) := by
  have hi : info md m f =
      let (ah, f) := agentHooksFor m md.agentHooks f
      let (ap, f) := agentPortsFor m md.agentPorts f
      let (h, f) := getFirst m.path (md.hooks m.kind) f
      let (p, f) := getFirst m.path (md.ports m.kind) f
      (⟨ah, ap, h, p⟩, f) := by
    obtain ⟨k, a, n⟩ := m
    cases k <;> rfl
  rw [hi]
  simp only
  obtain ⟨a1, a2, a3⟩ := agentHooksFor_spec m md.agentHooks f
  obtain ⟨b1, b2, b3⟩ := agentPortsFor_spec m md.agentPorts (agentHooksFor m md.agentHooks f).2
  obtain ⟨c1, c2, c3⟩ := getFirst_spec m.path (md.hooks m.kind)
    (agentPortsFor m md.agentPorts (agentHooksFor m md.agentHooks f).2).2
  obtain ⟨d1, d2, d3⟩ := getFirst_spec m.path (md.ports m.kind)
    (getFirst m.path (md.hooks m.kind)
      (agentPortsFor m md.agentPorts (agentHooksFor m md.agentHooks f).2).2).2
  refine ⟨?_, ?_, ?_⟩
  · rw [a1, b1, c1, d1]; rfl
  · intro i
    rw [d2, c2, b2, a2]
    unfold Hit
    simp only [or_assoc]
  · intro i j
    rw [d3, c3, b3, a3]
    unfold MHit
    simp only [or_assoc]

theorem injectAll_flags (md : Model) (x : Nat) (ms : List Method) (f : Flags) (s : EnvState) :
    (∀ i, (injectAll md x ms f s).1.matched i = true ↔
      f.matched i = true ∨ ∃ m ∈ ms, Hit md m i) ∧
    (∀ i j, (injectAll md x ms f s).1.methods i j = true ↔
      f.methods i j = true ∨ ∃ m ∈ ms, MHit md m i j) := by
  induction ms generalizing f s with
  | nil => simp [injectAll]
  | cons m ms ih =>
    simp only [injectAll]
    obtain ⟨_, h1, h2⟩ := info_spec md m f
    obtain ⟨h3, h4⟩ := ih (info md m f).2 (s.setInfo m x (info md m f).1)
    constructor
    · intro i
      rw [h3, h1]
      simp only [List.mem_cons, exists_eq_or_imp]
      exact or_assoc
    · intro i j
      rw [h4, h2]
      simp only [List.mem_cons, exists_eq_or_imp]
      exact or_assoc

/-! ### Wiring -/

/-- The entry of a method for a model. -/
def EnvState.info? (s : EnvState) (m : Method) (x : Nat) : Option Info := (s.infos m).lookup x

theorem lookup_dictSet {α : Type} (d : List (Nat × α)) (k : Nat) (v : α) (k' : Nat) :
    (dictSet d k v).lookup k' = if k' = k then some v else d.lookup k' := by
  induction d with
  | nil =>
    rw [dictSet]
    by_cases h : k' = k
    · subst h; simp
    · have hb : (k' == k) = false := by simpa using h
      simp [h, List.lookup, hb]
  | cons e r ih =>
    rw [dictSet]
    by_cases he : e.1 = k
    · rw [if_pos he, List.lookup_cons, List.lookup_cons, he]
      by_cases h : k' = k
      · subst h; simp
      · have hb : (k' == k) = false := by simpa using h
        simp [h, hb]
    · rw [if_neg he, List.lookup_cons, List.lookup_cons, ih]
      by_cases h : k' = k
      · subst h
        have : (k' == e.1) = false := by simpa using fun h => he h.symm
        rw [this]
      · simp only [h, if_false]

theorem injectAll_info (md : Model) (x : Nat) (ms : List Method) (f : Flags) (s : EnvState)
    (m : Method) (y : Nat) :
    (injectAll md x ms f s).2.info? m y =
      if m ∈ ms ∧ y = x then some (wiring md m) else s.info? m y := by
  induction ms generalizing f s with
  | nil => simp [injectAll]
  | cons m' ms ih =>
    simp only [injectAll]
    rw [ih]
    by_cases h : m ∈ ms ∧ y = x
    · rw [if_pos h, if_pos ⟨List.mem_cons_of_mem _ h.1, h.2⟩]
    · rw [if_neg h]
      simp only [EnvState.info?, EnvState.setInfo]
      by_cases hm : m = m'
      · subst hm
        rw [if_pos rfl, lookup_dictSet, (info_spec md m f).1]
        by_cases hy : y = x
        · simp [hy]
        · simp [hy]
      · rw [if_neg hm]
        have : ¬ (m ∈ m' :: ms ∧ y = x) := by
          rintro ⟨h1, h2⟩
          rcases List.mem_cons.1 h1 with h1 | h1
          · exact hm h1
          · exact h ⟨h1, h2⟩
        rw [if_neg this]

theorem injectAll_attached (md : Model) (x : Nat) (ms : List Method) (f : Flags) (s : EnvState) :
    (injectAll md x ms f s).2.attached = s.attached := by
  induction ms generalizing f s with
  | nil => rfl
  | cons m ms ih =>
    simp only [injectAll]
    rw [ih]
    rfl

theorem dictSet_keys {α : Type} (d : List (Nat × α)) (k : Nat) (v : α) :
    (dictSet d k v).map Prod.fst =
      if k ∈ d.map Prod.fst then d.map Prod.fst else d.map Prod.fst ++ [k] := by
  induction d with
  | nil => simp [dictSet]
  | cons e r ih =>
    rw [dictSet]
    by_cases he : e.1 = k
    · rw [if_pos he]
      simp [he]
    · rw [if_neg he, List.map_cons, ih]
      have : ¬ k = e.1 := fun h => he h.symm
      by_cases hk : k ∈ r.map Prod.fst
      · rw [if_pos hk, if_pos (by rw [List.map_cons]; exact List.mem_cons_of_mem _ hk)]
        rfl
      · rw [if_neg hk, if_neg (by simpa [this] using hk)]
        rfl

theorem injectAll_keys (md : Model) (x : Nat) (ms : List Method) (hnd : ms.Nodup) (f : Flags)
    (s : EnvState) (m : Method) :
    ((injectAll md x ms f s).2.infos m).map Prod.fst =
      if m ∈ ms ∧ x ∉ (s.infos m).map Prod.fst then (s.infos m).map Prod.fst ++ [x]
      else (s.infos m).map Prod.fst := by
  induction ms generalizing f s with
  | nil => simp [injectAll]
  | cons m' ms ih =>
    obtain ⟨h1, h2⟩ := List.nodup_cons.1 hnd
    simp only [injectAll]
    rw [ih h2]
    by_cases hm : m = m'
    · subst hm
      rw [if_neg (by simp [h1])]
      simp only [EnvState.setInfo, if_true]
      rw [dictSet_keys]
      by_cases hx : x ∈ (s.infos m).map Prod.fst
      · rw [if_pos hx, if_neg (by simp [hx])]
      · rw [if_neg hx, if_pos ⟨List.mem_cons_self, hx⟩]
    · have : (s.setInfo m' x (info md m' f).1).infos m = s.infos m := by
        simp [EnvState.setInfo, hm]
      rw [this]
      simp only [List.mem_cons, hm, false_or]

/-! ### Checks -/

theorem firstErr_none {α : Type} {chk : α → Option Err} {l : List α} :
    firstErr chk l = none ↔ ∀ a ∈ l, chk a = none := by
  induction l with
  | nil => simp [firstErr]
  | cons a l ih =>
    rw [firstErr]
    cases h : chk a <;> simp [h, ih]

theorem andThen_none {a b : Option Err} : andThen a b = none ↔ a = none ∧ b = none := by
  cases a <;> simp [andThen]

theorem ite_none {p : Prop} [Decidable p] {e : Err} :
    (if p then none else some e : Option Err) = none ↔ p := by
  by_cases h : p <;> simp [h]

theorem allMarked_iff {f : Flags} {id n : Nat} :
    allMarked f id n = true ↔ ∀ j, j < n → f.methods id j = true := by
  simp [allMarked]

theorem ensureAllMatched_none {md : Model} {f : Flags} :
    ensureAllMatched md f = none ↔
      (∀ h ∈ md.agentHooks, ∀ j, j < h.methods.length → f.methods h.id j = true) ∧
      (∀ k, ∀ x ∈ md.hooks k, f.matched x.id = true) ∧
      (∀ p ∈ md.agentPorts, f.matched p.id = true ∧
        ∀ j, j < p.methods.length → f.methods p.id j = true) ∧
      (∀ k, ∀ x ∈ md.ports k, f.matched x.id = true) := by
  unfold ensureAllMatched
  simp only [andThen_none, firstErr_none, ite_none, allMarked_iff]
  constructor
  · rintro ⟨h1, h2, h3, h4, h5, h6⟩
    refine ⟨h1, ?_, ?_, ?_⟩
    · rintro (_ | _)
      · exact h2
      · exact h3
    · intro p hp
      have := h4 p hp
      split at this
      · rename_i hm
        exact ⟨hm, ite_none.1 this⟩
      · cases this
    · rintro (_ | _)
      · exact h5
      · exact h6
  · rintro ⟨h1, h2, h3, h4⟩
    refine ⟨h1, h2 .driver, h2 .monitor, ?_, h4 .driver, h4 .monitor⟩
    intro p hp
    rw [if_pos (h3 p hp).1, if_pos (h3 p hp).2]

theorem ensureModelMatch_none {e : Env} {md : Model} {f : Flags} :
    ensureModelMatch e md f = none ↔ ensureAllMatched md f = none ∧
      (∀ h ∈ md.agentHooks, (∀ a ∈ h.agents, a ∈ e.attrs) ∧ (h.agent = [] ∨ h.agent ∈ e.attrs)) ∧
      (∀ p ∈ md.agentPorts, (∀ a ∈ p.agents, a ∈ e.attrs) ∧ (p.name = [] ∨ p.name ∈ e.attrs)) := by
  unfold ensureModelMatch
  simp only [andThen_none, firstErr_none, ite_none]

theorem attach_err {env : Env} {md : Model} {w : World} {e x : Nat} :
    (attach env md w e x).2 =
      ensureModelMatch env md (injectAll md x env.methods w.flags (w.envs e)).1 := by
  unfold attach
  simp only
  split
  · rename_i h; rw [h]
  · rename_i h; rw [h]

theorem attach_flags {env : Env} {md : Model} {w : World} {e x : Nat} :
    (attach env md w e x).1.flags = (injectAll md x env.methods w.flags (w.envs e)).1 := by
  unfold attach
  simp only
  split <;> rfl

theorem attach_info {env : Env} {md : Model} {w : World} {e x : Nat} (e' : Nat) (m : Method)
    (y : Nat) :
    ((attach env md w e x).1.envs e').info? m y =
      if e' = e ∧ m ∈ env.methods ∧ y = x then some (wiring md m) else (w.envs e').info? m y := by
  unfold attach
  simp only
  by_cases h : e' = e
  · subst h
    have h1 := injectAll_info md x env.methods w.flags (w.envs e') m y
    split
    · simp only [World.setEnv, if_true, true_and]
      exact h1
    · simp only [World.setEnv, if_true, true_and]
      exact h1
  · split <;> simp [World.setEnv, h]

theorem attach_keys {env : Env} (hnd : env.methods.Nodup) {md : Model} {w : World} {e x : Nat}
    (e' : Nat) (m : Method) :
    (((attach env md w e x).1.envs e').infos m).map Prod.fst =
      if e' = e ∧ m ∈ env.methods ∧ x ∉ ((w.envs e').infos m).map Prod.fst then
        ((w.envs e').infos m).map Prod.fst ++ [x]
      else ((w.envs e').infos m).map Prod.fst := by
  unfold attach
  simp only
  by_cases h : e' = e
  · subst h
    have h1 := injectAll_keys md x env.methods hnd w.flags (w.envs e') m
    split
    · simp only [World.setEnv, if_true, true_and]
      exact h1
    · simp only [World.setEnv, if_true, true_and]
      exact h1
  · split <;> simp [World.setEnv, h]

end Toffee.Attach
