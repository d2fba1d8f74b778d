import Verif.Model.PathShare

/-! C132: the path that agent hooks and agent ports are given. -/

namespace Toffee.Props.PathShare

open Toffee.PathShare
open Toffee.Paths (Name)

theorem config_other (as : List (Name × Nat)) (p : Names) (g : Nat) (h : ∀ a ∈ as, a.2 ≠ g) : config as p g = p g := by
  induction as generalizing p with
  | nil => rfl
  | cons a as ih =>
    rw [config, ih _ fun b hb => h b (List.mem_cons_of_mem _ hb), if_neg fun e => h a List.mem_cons_self e.symm]

theorem config_last (pre post : List (Name × Nat)) (n : Name) (g : Nat) (p : Names) (h : ∀ a ∈ post, a.2 ≠ g) :
    config (pre ++ (n, g) :: post) p g = some n := by
  induction pre generalizing p with
  | nil => rw [List.nil_append, config, config_other post _ g h, if_pos rfl]
  | cons a pre ih => rw [List.cons_append, config, ih]

theorem configAll_other (envs : List (List (Name × Nat))) (p : Names) (g : Nat) (h : ∀ e ∈ envs, ∀ a ∈ e, a.2 ≠ g) :
    configAll envs p g = p g := by
  induction envs generalizing p with
  | nil => rfl
  | cons e envs ih =>
    rw [configAll, List.foldl_cons]
    exact (ih _ fun e' he' => h e' (List.mem_cons_of_mem _ he')).trans
      (config_other e p g (h e List.mem_cons_self))

/-- The last attribute of the agent in the last environment that has it decides. -/
theorem configAll_last (envs later : List (List (Name × Nat))) (pre post : List (Name × Nat)) (n : Name) (g : Nat)
    (p : Names) (h : ∀ a ∈ post, a.2 ≠ g) (hl : ∀ e ∈ later, ∀ a ∈ e, a.2 ≠ g) :
    configAll (envs ++ (pre ++ (n, g) :: post) :: later) p g = some n := by
  have : configAll (envs ++ (pre ++ (n, g) :: post) :: later) p =
      configAll later (config (pre ++ (n, g) :: post) (configAll envs p)) := by
    simp [configAll]
  rw [this, configAll_other later _ g hl, config_last pre post n g _ h]

/-- **C132 (in part).** If an agent has one attribute in an environment and none in the environments made later, its
hooks and ports are given the path under that attribute. -/
theorem C132_own_partial {envs later : List (List (Name × Nat))} {pre post : List (Name × Nat)} {n : Name} {g : Nat}
    (p : Names) (h : ∀ a ∈ post, a.2 ≠ g) (hl : ∀ e ∈ later, ∀ a ∈ e, a.2 ≠ g) (m : Name) :
    given (configAll (envs ++ (pre ++ (n, g) :: post) :: later) p) g m = some (n ++ '.' :: m) := by
  rw [given, configAll_last envs later pre post n g p h hl]
  rfl

/-- **C132 (violated).** An environment made later takes over an agent under another attribute name: whatever the
names and the other agents are, the hooks and ports of models attached to the first environment are given a path
that is not the one under which this environment has the method. -/
theorem C132_shared_violated {envs mid later : List (List (Name × Nat))} {first pre post : List (Name × Nat)}
    {n' : Name} {g : Nat} (p : Names) (hn : ∀ a ∈ first, a.2 = g → a.1 ≠ n')
    (h : ∀ a ∈ post, a.2 ≠ g) (hl : ∀ e ∈ later, ∀ a ∈ e, a.2 ≠ g) (m : Name) :
    ∀ a ∈ first, a.2 = g →
      given (configAll (envs ++ first :: mid ++ (pre ++ (n', g) :: post) :: later) p) g m ≠ some (a.1 ++ '.' :: m) := by
  intro a ha hg
  rw [C132_own_partial p h hl m]
  intro he
  have := List.append_cancel_right (Option.some.inj he)
  exact hn a ha hg this.symm

/-- **C132 (violated).** An agent that is in no environment when its constructor ends, for instance because it is made
an attribute afterwards: the hooks and ports raise `AttributeError` instead. -/
theorem C132_late_violated {envs : List (List (Name × Nat))} {g : Nat} (h : ∀ e ∈ envs, ∀ a ∈ e, a.2 ≠ g) (m : Name) :
    given (configAll envs fun _ => none) g m = none := by
  rw [given, configAll_other envs _ g h]
  rfl

/-- A block environment has the agent 0 as `bus`; the environment of the whole system has it as `main_bus`: the hooks
of the model of the block are given `main_bus.send`. -/
example :
    given (configAll [[("bus".toList, 0)]] fun _ => none) 0 "send".toList = some "bus.send".toList ∧
    given (configAll [[("bus".toList, 0)], [("cfg".toList, 1), ("main_bus".toList, 0)]] fun _ => none) 0 "send".toList =
      some "main_bus.send".toList ∧
    given (configAll [[("bus".toList, 0)]] fun _ => none) 1 "send".toList = none := by
  decide

end Toffee.Props.PathShare
