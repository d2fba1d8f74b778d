import Verif.Model.AttachAlias
import Verif.Props.Attach

/-! C130: one agent under several attributes of an environment. -/

namespace Toffee.Props.AttachAlias

open Toffee.Attach
open Toffee.Paths (Name)

theorem inject_flags (who : Name → Nat) (md : Model) (x : Nat) (ms : List Method) (f : Flags)
    (s : Obj → List (Nat × Info)) (s' : EnvState) :
    (injectAlias who md x ms f s).1 = (injectAll md x ms f s').1 := by
  induction ms generalizing f s s' with
  | nil => rfl
  | cons m ms ih =>
    simp only [injectAlias, injectAll]
    exact ih _ _ _

/-- Methods of other objects leave the `model_infos` of an object alone. -/
theorem inject_other (who : Name → Nat) (md : Model) (x : Nat) (ms : List Method) (f : Flags)
    (s : Obj → List (Nat × Info)) (o : Obj) (h : ∀ m ∈ ms, m.obj who ≠ o) :
    (injectAlias who md x ms f s).2 o = s o := by
  induction ms generalizing f s with
  | nil => rfl
  | cons m ms ih =>
    simp only [injectAlias]
    rw [ih _ _ fun m' hm' => h m' (List.mem_cons_of_mem _ hm')]
    rw [if_neg fun e => h m List.mem_cons_self e.symm]

/-- The last method of an object decides. -/
theorem inject_last (who : Name → Nat) (md : Model) (x : Nat) (pre post : List Method) (m : Method) (f : Flags)
    (s : Obj → List (Nat × Info)) (h : ∀ m' ∈ post, m'.obj who ≠ m.obj who) :
    ((injectAlias who md x (pre ++ m :: post) f s).2 (m.obj who)).lookup x = some (wiring md m) := by
  induction pre generalizing f s with
  | nil =>
    simp only [List.nil_append, injectAlias]
    rw [inject_other who md x post _ _ _ h, if_pos rfl, lookup_dictSet, if_pos rfl, (info_spec md m f).1]
  | cons a pre ih =>
    simp only [List.cons_append, injectAlias]
    exact ih _ _

/-- There is a last method of every object that has one. -/
theorem exists_last (who : Name → Nat) (o : Obj) (ms : List Method) :
    (∀ m ∈ ms, m.obj who ≠ o) ∨
      ∃ pre m post, ms = pre ++ m :: post ∧ m.obj who = o ∧ ∀ m' ∈ post, m'.obj who ≠ o := by
  induction ms with
  | nil => exact .inl (by simp)
  | cons m ms ih =>
    rcases ih with h | ⟨pre, m', post, rfl, h1, h2⟩
    · by_cases hm : m.obj who = o
      · exact .inr ⟨[], m, ms, rfl, hm, h⟩
      · refine .inl fun m' hm' => ?_
        rcases List.mem_cons.1 hm' with rfl | h'
        · exact hm
        · exact h m' h'
    · exact .inr ⟨m :: pre, m', post, rfl, h1, h2⟩

/-- **C130 (in part).** Whether `attach` returns does not depend on which attributes are the same agent: it is the
verdict of C29. -/
theorem C130_outcome_partial (env : Env) (who : Name → Nat) (md : Model) (x : Nat) (w : World) (e : Nat)
    (s : Obj → List (Nat × Info)) :
    (attachAlias env who md x w.flags s).2 = (attach env md w e x).2 := by
  rw [attach_err]
  unfold attachAlias
  rw [inject_flags who md x env.methods w.flags s (w.envs e)]

/-- **C130 (in part).** A driver or monitor gets the hooks and ports that the model has for it under the last of the
attributes of its agent, in the order of `dir()`. -/
theorem C130_last_partial {env : Env} {who : Name → Nat} (md : Model) (x : Nat) (f : Flags)
    (s : Obj → List (Nat × Info)) {pre post : List Method} {m : Method} (hm : env.methods = pre ++ m :: post)
    (h : ∀ m' ∈ post, m'.obj who ≠ m.obj who) :
    ((attachAlias env who md x f s).1.2 (m.obj who)).lookup x = some (wiring md m) := by
  unfold attachAlias
  rw [hm]
  exact inject_last who md x pre post m f s h

theorem mem_split {α : Type} {a : α} {l : List α} (h : a ∈ l) : ∃ pre post, l = pre ++ a :: post := by
  induction l with
  | nil => cases h
  | cons b l ih =>
    rcases List.mem_cons.1 h with rfl | h
    · exact ⟨[], l, rfl⟩
    · obtain ⟨pre, post, rfl⟩ := ih h
      exact ⟨b :: pre, post, rfl⟩

/-- **C130 (in part).** If no agent has two attributes, every method gets what the model has for it. -/
theorem C130_distinct_partial {env : Env} {who : Name → Nat} (md : Model) (x : Nat) (f : Flags)
    (s : Obj → List (Nat × Info))
    (hw : ∀ m ∈ env.methods, ∀ m' ∈ env.methods, who m.agent = who m'.agent → m.agent = m'.agent)
    {m : Method} (hm : m ∈ env.methods) :
    ((attachAlias env who md x f s).1.2 (m.obj who)).lookup x = some (wiring md m) := by
  rcases exists_last who (m.obj who) env.methods with h | ⟨pre, m', post, he, h1, h2⟩
  · exact absurd rfl (h m hm)
  · have hm' : m' ∈ env.methods := by rw [he]; simp
    have : m' = m := by
      obtain ⟨k, a, n⟩ := m
      obtain ⟨k', a', n'⟩ := m'
      simp only [Method.obj, Obj.mk.injEq] at h1
      obtain ⟨rfl, h3, rfl⟩ := h1
      rw [show a' = a from hw _ hm' _ hm h3]
    subst this
    exact C130_last_partial md x f s he h2

theorem split_unique {α : Type} {m : α} {a b c d : List α} (hn : (a ++ m :: b).Nodup)
    (h : a ++ m :: b = c ++ m :: d) : b = d := by
  induction a generalizing c with
  | nil =>
    cases c with
    | nil => simpa using h
    | cons y c =>
      simp only [List.nil_append, List.cons_append, List.cons.injEq] at h
      obtain ⟨rfl, rfl⟩ := h
      simp at hn
  | cons z a ih =>
    cases c with
    | nil =>
      simp only [List.nil_append, List.cons_append, List.cons.injEq] at h
      obtain ⟨rfl, rfl⟩ := h
      simp at hn
    | cons y c =>
      simp only [List.cons_append, List.cons.injEq] at h
      exact ih (List.nodup_cons.1 hn).2 h.2

/-- **C130 (violated).** Let an agent have two attributes, `m` be a method under the first and `m'` the same method
under the second.  A driver or monitor hook for the path of `m` is in the `model_infos` of no object at all: no call
runs it, although `attach` counts it as matched. -/
theorem C130_alias_violated {env : Env} {who : Name → Nat} {md : Model} (hwf : md.Wf) (x : Nat) (f : Flags)
    {s : Obj → List (Nat × Info)} (hs : ∀ o, (s o).lookup x = none)
    {pre mid post : List Method} {m m' : Method} (hm : env.methods = pre ++ m :: (mid ++ m' :: post))
    (ho : m'.obj who = m.obj who)
    {h : PathItem} (hh : h ∈ md.hooks m.kind) (hp : h.path = m.path)
    (hnd : ((md.hooks m.kind).map PathItem.path).Nodup)
    (hn : env.methods.Nodup) (hu : ∀ n ∈ env.methods, n.kind = m.kind → n.path = m.path → n = m) :
    (attachAlias env who md x f s).1.1.matched h.id = true ∧
    ∀ o i, ((attachAlias env who md x f s).1.2 o).lookup x = some i → i.hook ≠ some h.id := by
  constructor
  · unfold attachAlias
    dsimp only
    rw [inject_flags who md x env.methods f s EnvState.init]
    refine ((injectAll_flags md x env.methods f EnvState.init).1 h.id).2 (.inr ⟨m, by rw [hm]; simp, ?_⟩)
    refine .inr (.inr (.inl ?_))
    have hk := ((C30_exact md hwf m).2.2.1 m.kind h hh hnd).2 ⟨rfl, hp⟩
    change ((md.hooks m.kind).find? fun x => x.path = m.path).map PathItem.id = some h.id at hk
    obtain ⟨y, hy, hid⟩ := Option.map_eq_some_iff.1 hk
    exact ⟨y, hy, hid.symm⟩
  · intro o i hi hc
    rcases exists_last who o env.methods with hno | ⟨p1, n, p2, he, h1, h2⟩
    · unfold attachAlias at hi
      rw [inject_other who md x env.methods f s o hno, hs] at hi
      cases hi
    · subst h1
      rw [C130_last_partial md x f s he h2] at hi
      cases hi
      have hk := (C30_exact md hwf n).2.2.1 m.kind h hh hnd
      obtain ⟨hk1, hk2⟩ := hk.1 hc
      have : n = m := hu n (by rw [he]; simp) hk1 (hk2.symm.trans hp)
      subst this
      have hp2 : p2 = mid ++ m' :: post := split_unique (he ▸ hn) (he.symm.trans hm)
      exact h2 m' (by rw [hp2]; simp) ho

/-! ### An environment with an alias -/

/-- The attributes `a` and `b` are one agent with the driver method `send`. -/
def two : Env :=
  ⟨["a".toList, "b".toList], [⟨"a".toList, ["send".toList], []⟩, ⟨"b".toList, ["send".toList], []⟩]⟩

/-- A model with a hook for `a.send`. -/
def one : Model := ⟨[], [⟨0, "a.send".toList⟩], [], [], [], []⟩

/-- **C130 (violated), an example.** `attach` returns, and the driver has no hook: no call of `env.a.send` or
`env.b.send` runs the hook.  If `a` and `b` are two agents, the driver of `a` has the hook. -/
theorem C130_example_violated :
    (attachAlias two (fun _ => 0) one 7 Flags.none fun _ => []).2 = none ∧
    ((attachAlias two (fun _ => 0) one 7 Flags.none fun _ => []).1.2 ⟨.driver, 0, "send".toList⟩).lookup 7 =
      some ⟨[], [], none, none⟩ ∧
    (attachAlias two (fun n => if n = "a".toList then 0 else 1) one 7 Flags.none fun _ => []).2 = none ∧
    ((attachAlias two (fun n => if n = "a".toList then 0 else 1) one 7 Flags.none fun _ => []).1.2
      ⟨.driver, 0, "send".toList⟩).lookup 7 = some ⟨[], [], some 0, none⟩ := by
  decide

/-- The hypotheses of `C130_alias_violated`. -/
example :
    two.methods = [] ++ ⟨.driver, "a".toList, "send".toList⟩ :: ([] ++ ⟨.driver, "b".toList, "send".toList⟩ :: []) ∧
    two.methods.Nodup ∧
    (∀ n ∈ two.methods, n.kind = .driver → n.path = "a.send".toList → n = ⟨.driver, "a".toList, "send".toList⟩) ∧
    one.Wf := by
  refine ⟨by decide, by decide, by decide, ⟨by decide, by decide⟩⟩

/-- The hypothesis of `C130_distinct_partial`. -/
example : ∀ m ∈ two.methods, ∀ m' ∈ two.methods,
    (if m.agent = "a".toList then 0 else 1) = (if m'.agent = "a".toList then 0 else 1) → m.agent = m'.agent := by
  decide

end Toffee.Props.AttachAlias
