import Verif.Model.PortAlias

/-! C134: agent ports under several attributes. -/

namespace Toffee.Props.PortAlias

open Toffee.PortAlias
open Toffee.Paths (Name)
open Toffee.Attach (AgentPort Method Flags agentPortsFor contain Flags.none)

/-- What the arguments of an agent port ask for if it is the attribute `attr` of the model: the messages of the
method `m`. -/
def Wants (s : Spec) (attr : Name) (m : Method) : Prop :=
  (s.agent ≠ [] ∧ m.agent = s.agent) ∨ (s.agent = [] ∧ m.agent = attr) ∨ m.agent ∈ s.agents ∨ m.path ∈ s.methods

/-- The message `v` put `k` times. -/
def putTimes {V : Type} (v : V) : Nat → Port.Port V → Port.Port V
  | 0, p => p
  | k + 1, p => putTimes v k (p.put v).1

/-- The number of attributes that are the port `i`. -/
def attributes (attrs : List (Name × Nat)) (i : Nat) : Nat := (attrs.map Prod.snd).count i

theorem collect_list (attrs : List (Name × Nat)) (n : Names) : (collect attrs n).2 = attrs.map Prod.snd := by
  induction attrs generalizing n with
  | nil => rfl
  | cons a as ih => simp [collect, ih]

theorem collect_kept (attrs : List (Name × Nat)) (n : Names) (i : Nat) (h : n i ≠ []) :
    (collect attrs n).1 i = n i := by
  induction attrs generalizing n with
  | nil => rfl
  | cons a as ih =>
    have e : (if i = a.2 ∧ n i = [] then a.1 else n i) = n i := if_neg fun hh => h hh.2
    simp only [collect]
    rw [ih _ (by rw [e]; exact h), e]

theorem collect_first (pre post : List (Name × Nat)) (a : Name) (ha : a ≠ []) (n : Names) (i : Nat) (h : n i = [])
    (hp : ∀ b ∈ pre, b.2 ≠ i) : (collect (pre ++ (a, i) :: post) n).1 i = a := by
  induction pre generalizing n with
  | nil =>
    have e : (if i = i ∧ n i = [] then a else n i) = a := if_pos ⟨rfl, h⟩
    simp only [List.nil_append, collect]
    rw [collect_kept post _ i (by rw [e]; exact ha), e]
  | cons b pre ih =>
    simp only [List.cons_append, collect]
    refine ih _ ?_ fun c hc => hp c (List.mem_cons_of_mem _ hc)
    rw [if_neg fun hh => hp b List.mem_cons_self hh.1.symm, h]

theorem contain_iff (id : Nat) (s : Spec) (name : Name) (m : Method) (f : Flags) :
    (contain id (Paths.agentPortPath s.agent name) s.agents s.methods m f).1 = true ↔ Wants s name m := by
  unfold contain Wants Paths.agentPortPath
  by_cases h : s.agent = []
  · by_cases h1 : m.agent = name <;> by_cases h2 : m.agent ∈ s.agents <;> by_cases h3 : m.path ∈ s.methods <;>
      simp [h, h1, h2, h3] <;> simp_all
  · by_cases h1 : m.agent = s.agent <;> by_cases h2 : m.agent ∈ s.agents <;> by_cases h3 : m.path ∈ s.methods <;>
      simp [h, h1, h2, h3] <;> simp_all

theorem portsFor_count (spec : Nat → Spec) (nm : Names) (m : Method) (l : List Nat) (f : Flags) (i : Nat)
    [Decidable (Wants (spec i) (nm i) m)] :
    ((agentPortsFor m (l.map fun j => ⟨j, nm j, (spec j).agent, (spec j).agents, (spec j).methods⟩) f).1).count i =
      if Wants (spec i) (nm i) m then l.count i else 0 := by
  induction l generalizing f with
  | nil => simp [agentPortsFor]
  | cons j l ih =>
    simp only [List.map_cons, agentPortsFor]
    have hc := contain_iff j (spec j) (nm j) m f
    by_cases hb : (contain j (Paths.agentPortPath (spec j).agent (nm j)) (spec j).agents (spec j).methods m f).1 = true
    · rw [if_pos hb, List.count_cons, ih]
      have hw := hc.1 hb
      by_cases hj : j = i
      · subst hj
        simp [hw]
      · simp [hj]
    · rw [if_neg hb, ih]
      have hw : ¬ Wants (spec j) (nm j) m := fun h => hb (hc.2 h)
      by_cases hj : j = i
      · subst hj
        simp [hw]
      · simp [hj]

theorem deliver_count {V : Type} (v : V) (l : List Nat) (q : Nat → Port.Port V) (i : Nat) :
    deliver v l q i = putTimes v (l.count i) (q i) := by
  induction l generalizing q with
  | nil => rfl
  | cons j l ih =>
    rw [deliver, ih]
    by_cases h : j = i
    · subst h
      simp [putTimes]
    · simp [h, Ne.symm h]

theorem putTimes_unbounded {V : Type} (v : V) (k : Nat) (p : Port.Port V) (h : p.maxsize = -1) :
    (putTimes v k p).items = p.items ++ List.replicate k v := by
  induction k generalizing p with
  | zero => simp [putTimes]
  | succ k ih =>
    have e : (p.put v).1 = { p with items := p.items ++ [v] } := by simp [Port.Port.put, h]
    rw [putTimes, ih _ (by rw [e]; exact h), e, List.append_assoc]
    rfl

open Classical in
/-- **C134 (in part).** Whatever attributes a model has and whatever the port is called before: for every message of
a method, `attach` has arranged that the port is given the message as many times as it is an attribute if its
arguments ask for the method under the first of its names, and not at all otherwise. -/
theorem C134_times_partial {V : Type} (v : V) (spec : Nat → Spec) {pre post : List (Name × Nat)} {a : Name} {i : Nat}
    (ha : a ≠ []) {n : Names} (hn : n i = []) (hp : ∀ b ∈ pre, b.2 ≠ i) (m : Method) (f : Flags)
    (q : Nat → Port.Port V) :
    deliver v (wired spec (pre ++ (a, i) :: post) n m f) q i =
      putTimes v (if Wants (spec i) a m then attributes (pre ++ (a, i) :: post) i else 0) (q i) := by
  rw [deliver_count, wired, ports, portsFor_count, collect_list, collect_first pre post a ha n i hn hp]
  rfl

open Classical in
/-- **C134 (in part).** A new port that is one attribute is given every message of exactly the methods that its
arguments ask for, exactly once. -/
theorem C134_once_partial {V : Type} (v : V) (spec : Nat → Spec) {pre post : List (Name × Nat)} {a : Name} {i : Nat}
    (ha : a ≠ []) {n : Names} (hn : n i = []) (hp : ∀ b ∈ pre ++ post, b.2 ≠ i) (m : Method) (f : Flags)
    (q : Nat → Port.Port V) :
    deliver v (wired spec (pre ++ (a, i) :: post) n m f) q i =
      if Wants (spec i) a m then ((q i).put v).1 else q i := by
  rw [C134_times_partial v spec ha hn (fun b hb => hp b (List.mem_append_left _ hb))]
  have h0 : attributes (pre ++ (a, i) :: post) i = 1 := by
    have h1 : (pre.map Prod.snd).count i = 0 := List.count_eq_zero.2 fun hm => by
      obtain ⟨b, hb, e⟩ := List.mem_map.1 hm
      exact hp b (List.mem_append_left _ hb) e
    have h2 : (post.map Prod.snd).count i = 0 := List.count_eq_zero.2 fun hm => by
      obtain ⟨b, hb, e⟩ := List.mem_map.1 hm
      exact hp b (List.mem_append_right _ hb) e
    simp [attributes, h1, h2]
  rw [h0]
  by_cases hw : Wants (spec i) a m
  · rw [if_pos hw, if_pos hw]; rfl
  · rw [if_neg hw, if_neg hw]; rfl

/-- **C134 (violated).** A port without bound that is `k` attributes of a model holds every message `k` times. -/
theorem C134_copies_violated {V : Type} (v : V) (spec : Nat → Spec) {pre post : List (Name × Nat)} {a : Name} {i : Nat}
    (ha : a ≠ []) {n : Names} (hn : n i = []) (hp : ∀ b ∈ pre, b.2 ≠ i) {m : Method} (f : Flags)
    {q : Nat → Port.Port V} (hq : (q i).maxsize = -1) (hw : Wants (spec i) a m) :
    (deliver v (wired spec (pre ++ (a, i) :: post) n m f) q i).items =
      (q i).items ++ List.replicate (attributes (pre ++ (a, i) :: post) i) v := by
  classical
  rw [C134_times_partial v spec ha hn hp, if_pos hw, putTimes_unbounded v _ _ hq]

/-- **C134 (violated).** A port without arguments that was called otherwise before — it was collected for another
model or under another attribute — is given nothing from the agent that has the name of its attributes in this
model. -/
theorem C134_renamed_violated {V : Type} (v : V) (spec : Nat → Spec) {attrs : List (Name × Nat)} {i : Nat} {n : Names}
    (hn : n i ≠ []) (hs : spec i = ⟨[], [], []⟩) {m : Method} (hm : ∀ b ∈ attrs, b.2 = i → m.agent = b.1)
    (hb : ∀ b ∈ attrs, b.2 = i → b.1 ≠ n i) (f : Flags) (q : Nat → Port.Port V) :
    (∀ b ∈ attrs, b.2 = i → Wants (spec i) b.1 m) ∧ deliver v (wired spec attrs n m f) q i = q i := by
  classical
  refine ⟨fun b hbm hbi => ?_, ?_⟩
  · rw [hs]
    exact Or.inr (Or.inl ⟨rfl, hm b hbm hbi⟩)
  rw [deliver_count, wired, ports, portsFor_count, collect_list, collect_kept attrs n i hn]
  by_cases hex : i ∈ attrs.map Prod.snd
  · obtain ⟨b, hbm, hbi⟩ := List.mem_map.1 hex
    have : ¬ Wants (spec i) (n i) m := by
      rw [hs]
      simp [Wants, hm b hbm hbi, hb b hbm hbi]
    rw [if_neg this]
    rfl
  · rw [List.count_eq_zero.2 hex, ite_self]
    rfl

/-- A model has the port 0 as `alu` and as `inbox`; one call of `alu.exec` arrives twice. -/
theorem C134_example_violated :
    (deliver 5 (wired (fun _ => ⟨[], [], []⟩) [("alu".toList, 0), ("inbox".toList, 0)] (fun _ => [])
      ⟨.driver, "alu".toList, "exec".toList⟩ Flags.none) (fun _ => ⟨4, []⟩) 0).items = [5, 5] := by
  decide

/-- A port as `alu` of one model and then as `fpu` of another: the second model gets nothing from its agent. -/
example : deliver 5 (wired (fun _ => ⟨[], [], []⟩) [("fpu".toList, 0)]
      (collect [("alu".toList, 0)] fun _ => []).1 ⟨.driver, "fpu".toList, "exec".toList⟩ Flags.none)
      (fun _ => ⟨4, []⟩) 0 = (⟨4, []⟩ : Port.Port Nat) :=
  C134_renamed_violated 5 (fun _ => ⟨[], [], []⟩) (by decide) rfl (by decide) (by decide) Flags.none _ |>.2

/-- Two ports, each one attribute; the hypotheses of `C134_once_partial` are met. -/
example : deliver 5 (wired (fun _ => ⟨[], [], []⟩) ([("alu".toList, 0)] ++ ("fpu".toList, 1) :: [])
      (fun _ => []) ⟨.monitor, "fpu".toList, "out".toList⟩ Flags.none) (fun _ => ⟨4, []⟩) 1 =
    (⟨4, [5]⟩ : Port.Port Nat) := by
  have hw : Wants ⟨[], [], []⟩ "fpu".toList ⟨.monitor, "fpu".toList, "out".toList⟩ := Or.inr (Or.inl ⟨rfl, rfl⟩)
  rw [C134_once_partial 5 _ (by decide) rfl (by decide), if_pos hw]
  rfl

end Toffee.Props.PortAlias
