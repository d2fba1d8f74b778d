import Verif.Model.Paths

/-! The `path` that agent hooks and agent ports are given (`toffee/_base_agent.py` 60, 94, 223, 230), with agents
that belong to several environments or to none when their constructors end (`toffee/env.py` 17-30, 93-108).

An environment is given by its attributes that are agents, in the order of `dir()`, each with the identity of the
agent object. -/

namespace Toffee.PathShare

open Toffee.Paths (Name)

/-- `agent_name` of the drivers and monitors of every agent; `none` as long as `path` is not set
(`_base_agent.py` 17-24 sets `path_name`). -/
abbrev Names := Nat → Option Name

/-- `__config_agent_name` (`env.py` 93-108), called when the constructor of an environment ends (17-30). -/
def config : List (Name × Nat) → Names → Names
  | [], p => p
  | a :: as, p => config as fun g => if g = a.2 then some a.1 else p g

/-- The constructors of environments that have ended, in their order. -/
def configAll (envs : List (List (Name × Nat))) (p : Names) : Names := envs.foldl (fun p e => config e p) p

/-- The path that the hooks and ports of a call of the method `m` of the agent `g` are given (`env.py` 102, 107);
`none` for the `AttributeError` of `self.path`. -/
def given (p : Names) (g : Nat) (m : Name) : Option Name := (p g).map fun n => n ++ '.' :: m

end Toffee.PathShare
