/-! `Bundle.process_requests` and the callback that it relies on (`toffee/bundle.py` 425-541), with
everything that a request can do to the rest of the program: `Verif.Model.Requests` has the identity of
the request dictionaries, this model has their effects.

The rest of the program (the device, the bundle, the test) is a state `W`. Conditions, callable requests,
`__funcs__` and the assignment may read and change it. Each dictionary of the list is an object of its
own that was not processed before (`C49_reuse_violated` is about the others), and the bundle is bound
once (`C49_rebind_violated`).

Not modelled: exceptions; `__condition_args__` (part of the condition); `__funcs__` and return bundles
that call `process_requests` themselves. -/

namespace Toffee.RequestsFull

/-- A value of `__funcs__` or an element of it: something callable, or not. -/
abbrev Func (W R : Type) := Option (Nat → W → R × W)

/-- A value of `__funcs__` or of `__return_bundles__`: not a list, or a list. -/
inductive Many (A : Type)
  | one (a : A)
  | list (l : List A)

/-- `[x]` if it is no list. -/
def Many.toList {A : Type} : Many A → List A
  | .one a => [a]
  | .list l => l

/-- A request dictionary. The elements of `__return_bundles__` are bundles, whose values can be read, or
something else. -/
structure Req (W V R : Type) where
  cond : Option (Nat → W → Bool × W)
  /-- `assign` of the keys that are left. -/
  assign : W → W
  funcs : Option (Many (Func W R))
  ret : Option (Many (Option (W → V)))

/-- An element of the list of requests: `None`, a dictionary, something callable that gets the cycle and
returns `None` or a dictionary. -/
inductive Item (W V R : Type)
  | none
  | dict (q : Req W V R)
  | call (f : Nat → W → Option (Req W V R) × W)

/-- An element of the list that is returned: `data`, `cycle` and `__funcs_return__`. -/
structure Res (V R : Type) where
  data : Many V
  cycle : Nat
  funcs : Many (Option R)

variable {W V R : Type}

/-- `x[0] if len(x) == 1 else x` (475-476, 485-486). -/
def unwrap {A : Type} : List A → Many A
  | [a] => .one a
  | l => .list l

/-- The loop over `__funcs__` (470-474). -/
def callFuncs (c : Nat) : List (Func W R) → W → List (Option R) × W
  | [], w => ([], w)
  | none :: fs, w =>
    let (rs, w) := callFuncs c fs w
    (none :: rs, w)
  | some f :: fs, w =>
    let (r, w) := f c w
    let (rs, w) := callFuncs c fs w
    (some r :: rs, w)

/-- The loop over `__return_bundles__` (482-484). -/
def readAll (w : W) : List (Option (W → V)) → List V
  | [] => []
  | none :: bs => readAll w bs
  | some b :: bs => b w :: readAll w bs

structure St (W V R : Type) where
  /-- `__dut_requests__`, with the positions in the list. -/
  queue : List (Nat × Item W V R)
  /-- `__blocked_request__`; a dictionary that a callable request returned is not in the list. -/
  blocked : Option (Option Nat × Req W V R)
  /-- `__return_values__`, `__return_cycles__` and `__funcs_return__` of the dictionaries of the list. -/
  saved : Nat → Option (Res V R)
  cycle : Nat
  w : W

/-- From the removal of the special keys to the end of the callback (460-491). -/
def apply (c : Nat) (k : Option Nat) (q : Req W V R) (s : St W V R) : St W V R :=
  let funcs : List (Func W R) := match q.funcs with
    | some fs => fs.toList
    | none => [none]
  let w := q.assign s.w
  let (rs, w) := callFuncs c funcs w
  let s := { s with w := w }
  match q.ret with
  | none => s
  | some bs =>
    let res : Res V R := ⟨unwrap (readAll w bs.toList), c, unwrap rs⟩
    match k with
    | some k => { s with saved := fun j => if j = k then some res else s.saved j }
    | none => s

/-- From the check of the condition (453-459). -/
def check (c : Nat) (k : Option Nat) (q : Req W V R) (s : St W V R) : St W V R :=
  match q.cond with
  | none => apply c k q s
  | some cond =>
    let (b, w) := cond c s.w
    if b then apply c k q { s with w := w } else { s with w := w, blocked := some (k, q) }

/-- `___dut_call_on_rise__` (425-491). A blocked request has a condition. -/
def onRise (c : Nat) (s : St W V R) : St W V R :=
  match s.blocked with
  | some (k, q) =>
    match q.cond with
    | none => s
    | some cond =>
      let (b, w) := cond c s.w
      if b then apply c k q { s with w := w, blocked := none } else { s with w := w }
  | none =>
    match s.queue with
    | [] => s
    | (_, .none) :: l => { s with queue := l }
    | (k, .dict q) :: l => check c (some k) q { s with queue := l }
    | (_, .call f) :: l =>
      match f c s.w with
      | (none, w) => { s with queue := l, w := w }
      | (some q, w) => check c none q { s with queue := l, w := w }

/-- What a step of the device does before and after it calls the callback of the bundle. -/
structure Dut (W : Type) where
  before : Nat → W → W
  after : Nat → W → W

/-- `Step(1)`. -/
def step (D : Dut W) (s : St W V R) : St W V R :=
  let t := onRise s.cycle { s with w := D.before s.cycle s.w }
  { t with w := D.after s.cycle t.w, cycle := s.cycle + 1 }

/-- The requests with their positions. -/
def enum {A : Type} : Nat → List A → List (Nat × A)
  | _, [] => []
  | k, a :: l => (k, a) :: enum (k + 1) l

/-- The bundle and the rest of the program when `process_requests` is called, and after `n` rounds of
the loop (530-531). -/
def rounds (D : Dut W) (items : List (Item W V R)) (c : Nat) (w : W) : Nat → St W V R
  | 0 => ⟨enum 0 items, none, fun _ => none, c, w⟩
  | n + 1 => step D (rounds D items c w n)

/-- The loop ends after `n` rounds. -/
def Ends (D : Dut W) (items : List (Item W V R)) (c : Nat) (w : W) (n : Nat) : Prop :=
  (rounds D items c w n).queue = [] ∧ ∀ m, m < n → (rounds D items c w m).queue ≠ []

/-- The list that `process_requests` returns (532-541). -/
def results (items : List (Item W V R)) (s : St W V R) : List (Res V R) :=
  (enum 0 items).filterMap fun x =>
    match x.2 with
    | .dict _ => s.saved x.1
    | _ => none

end Toffee.RequestsFull
