import Verif.Props.ExecutorGroups
import Verif.Props.Driver

/-! The settings of `exec(coro, priority=.., sche_order=..)` (`toffee/executor.py` 198-215): C70. -/

namespace Toffee.Settings

open Toffee.Driver (Drv Act Setting Hook hooksOf portless proj whole run init)

variable {A D R V : Type}

/-- C70: `exec(..)` raises exactly for the calls that are not legal. -/
theorem C70_rejects (gs : Dict Executor.Name (List Executor.Entry)) (c : Executor.Call) :
    (Executor.call gs c).2 = false ↔ ¬ Executor.Legal c := by
  unfold Executor.call
  rw [← Executor.legal_iff]
  cases c.ok <;> simp

/-- C70: a rejected coroutine never runs. -/
theorem C70_rejected_never_runs (exit : Executor.Name) (cs : List Executor.Call)
    (as : List (Executor.Act V)) (hd : Executor.Distinct cs) (c : Executor.Call) (hc : c ∈ cs)
    (hl : ¬ Executor.Legal c) : .start c.coro.id ∉ (Executor.after exit cs as).log := by
  intro h
  obtain ⟨c', hc', hl', he⟩ := Executor.C19_only exit cs as hd _ h
  have := Executor.mem_inj hd hc hc' he
  subst this
  exact hl hl'

/-- The setting of the entry that `exec(..)` appends. -/
def settingOf (e : Executor.Entry) : Setting := ⟨e.priority, e.order⟩

theorem appended {gs : Dict Executor.Name (List Executor.Entry)} {k : Executor.Call}
    (hk : (Executor.call gs k).2 = true) {es : List Executor.Entry} {e : Executor.Entry}
    (he : Dict.get? (Executor.call gs k).1 (Executor.key k) = some (es ++ [e])) :
    e = k.entry := by
  unfold Executor.call at hk he
  cases hok : k.ok with
  | false => simp [hok] at hk
  | true =>
    simp only [hok, if_true, ← Executor.key_eq, Dict.get?_modify] at he
    generalize (if gs.has k.groupName then gs else gs.set k.groupName []) = gs' at he
    cases hg : Dict.get? gs' k.groupName with
    | none => simp [hg] at he
    | some l =>
      simp only [hg, Option.map_some, Option.some.injEq] at he
      have := congrArg List.getLast? he
      simp only [List.getLast?_concat, Option.some.injEq] at this
      exact this.symm

/-- How the hooks of a call lie around the driver method: all before, all after, or each where its own
`sche_order` says. -/
inductive Around
  | before
  | after
  | own

/-- What `sche_order` means for a call. -/
def meaning (o : Option (List Char)) : Around :=
  if o = some "model_first".toList ∨ o = some "parallel".toList then .before
  else if o = some "dut_first".toList then .after
  else .own

/-- The hooks of the models that provide no port are those of `e1` and `e2`, each once. -/
def Lies (m : Around) (hs : List Hook) (e1 e2 : List (Hook × Option R)) : Prop :=
  ((e1 ++ e2).map Prod.fst).Perm hs ∧
  match m with
  | .before => e2 = []
  | .after => e1 = []
  | .own => (∀ x ∈ e1, x.1.first = true) ∧ ∀ x ∈ e2, x.1.first = false

theorem sides_lies {o : Option (List Char)} {hs : List Hook} {e1 e2 : List (Hook × Option R)}
    (h : Driver.Sides (Executor.readOrder o) hs e1 e2) : Lies (meaning o) hs e1 e2 := by
  obtain ⟨h1, h2⟩ := h
  have hp : ((e1 ++ e2).map Prod.fst).Perm hs := by
    rw [List.map_append]
    exact (h1.append h2).trans (List.filter_append_perm _ _)
  have m1 : ∀ x ∈ e1, Driver.RunsFirst (Executor.readOrder o) x.1 := by
    intro x hx
    have := (h1.mem_iff (a := x.1)).1 (List.mem_map_of_mem hx)
    exact of_decide_eq_true (List.mem_filter.1 this).2
  have m2 : ∀ x ∈ e2, ¬ Driver.RunsFirst (Executor.readOrder o) x.1 := by
    intro x hx
    have := (h2.mem_iff (a := x.1)).1 (List.mem_map_of_mem hx)
    simpa using (List.mem_filter.1 this).2
  have n1 : ("model_first".toList) ≠ "parallel".toList := by decide
  have n2 : ("model_first".toList) ≠ "dut_first".toList := by decide
  have n3 : ("parallel".toList) ≠ "dut_first".toList := by decide
  refine ⟨hp, ?_⟩
  unfold meaning
  unfold Driver.RunsFirst Executor.readOrder at m1 m2
  generalize "model_first".toList = mf at *
  generalize "parallel".toList = pa at *
  generalize "dut_first".toList = df at *
  by_cases c1 : o = some mf ∨ o = some pa
  · rw [if_pos c1]
    show e2 = []
    rw [List.eq_nil_iff_forall_not_mem]
    intro x hx
    rcases c1 with rfl | rfl
    · exact m2 x hx (by simp [n1])
    · exact m2 x hx (by simp)
  · rw [if_neg c1]
    have c1' := not_or.1 c1
    by_cases c2 : o = some df
    · rw [if_pos c2]
      show e1 = []
      rw [List.eq_nil_iff_forall_not_mem]
      intro x hx
      subst c2
      have := m1 x hx
      simp [n3.symm, n2.symm] at this
    · rw [if_neg c2]
      cases o with
      | none => exact ⟨fun x hx => by simpa using m1 x hx, fun x hx => by simpa using m2 x hx⟩
      | some o =>
        have d1 : o ≠ mf := fun h => c1'.1 (by rw [h])
        have d2 : o ≠ pa := fun h => c1'.2 (by rw [h])
        have d3 : o ≠ df := fun h => c2 (by rw [h])
        exact ⟨fun x hx => by simpa [d1, d2, d3] using m1 x hx,
          fun x hx => by simpa [d1, d2, d3] using m2 x hx⟩

/-- C70: for a call that the executor makes, `"model_first"` and `"parallel"` mean that all hooks run
before the driver method, `"dut_first"` that all run after it, and every other text nothing. -/
theorem C70_order (gs : Dict Executor.Name (List Executor.Entry)) (k : Executor.Call)
    (hk : (Executor.call gs k).2 = true) (es : List Executor.Entry) (e : Executor.Entry)
    (he : Dict.get? (Executor.call gs k).1 (Executor.key k) = some (es ++ [e]))
    (drv : Nat → Drv D R) (as : List (Act A D R)) (c d : Nat) (a : A) (ok : Bool)
    (h : .invoke c d a (some (settingOf e)) ∈ (run drv init as).log)
    (hd : .checked c ok ∈ (run drv init as).log) :
    ∃ e1 r e2, Lies (meaning k.order) (hooksOf (portless (drv d).infos)) e1 e2 ∧
      proj c (run drv init as).log = whole c a e1 r e2 ok := by
  obtain ⟨o, e1, r, e2, h1, h2, h3⟩ := Driver.C22_whole_partial drv as c d a _ ok h hd
  have ho := h1 _ rfl
  rw [appended hk he] at ho
  subst ho
  exact ⟨e1, r, e2, sides_lies h2, h3⟩

/-! ### The hypotheses can be met -/

namespace Witness

def hook : Hook := ⟨0, false, 5⟩

def drv : Nat → Drv Nat Nat := fun _ => ⟨[⟨some hook, [], none, []⟩], fun x y => x == y⟩

/-- `exec(agent.m(), sche_order="parallel")`. -/
def call : Executor.Call := ⟨⟨0, "m".toList, some "a".toList⟩, none, some "parallel".toList, none⟩

def acts : List (Act Unit Nat Nat) :=
  [.invoke 0 () (some (settingOf call.entry)), .callbacks fun _ _ => some 3, .proceed 0, .bodyEnd 0 3,
    .background 0, .check 0]

end Witness

/-- The hook's own order is `dut_first`, and it runs before the driver method. -/
example : (Executor.call [] Witness.call).2 = true ∧
    Dict.get? (Executor.call [] Witness.call).1 (Executor.key Witness.call) =
      some ([] ++ [Witness.call.entry]) ∧
    proj 0 (run Witness.drv init Witness.acts).log =
      [.exec 0 Witness.hook () (some 3), .bodyStart 0, .bodyEnd 0 3, .checked 0 true] := by
  decide +kernel

/-- Priority 100 is rejected, and so is a priority for a coroutine that is no driver call. -/
example : ¬ Executor.Legal ⟨⟨0, "m".toList, some "a".toList⟩, some 100, none, none⟩ ∧
    ¬ Executor.Legal ⟨⟨0, "f".toList, none⟩, some 1, none, none⟩ ∧
    Executor.Legal ⟨⟨0, "m".toList, some "a".toList⟩, some 99, none, none⟩ := by decide +kernel

end Toffee.Settings
