/-! Instances of a bundle class (`toffee/bundle.py` 73-157, 389-423).

The attributes of a class are objects that exist once; `Bundle.__init__` replaces them on the instance.
Objects have an address. Which objects belong to an instance never changes after `__init__` (no other
method sets an attribute to a bundle, a signal list or a bundle list), so it is kept apart from what the
objects contain.

Simplified: the elements of all bundle lists of an object are one list, and attribute names are left out.
`current_level_signals` of a sub-bundle is shared with the object of the class, but it is only changed
during construction (981, 1079, 1083), so it is part of the class. -/

namespace Toffee.Instances

/-- A bundle object with the addresses of its signal lists, its sub-bundles, and the elements of its
bundle lists. -/
inductive Inst
  | mk (addr : Nat) (lists : List Nat) (subs : List Inst) (elems : List Inst)

/-- What methods change in a bundle object: its name, whether it is bound, the connect method, the
write mode, the clock event, and the signals (`none`: not connected). -/
structure Obj where
  name : Nat := 0
  bound : Bool := false
  method : Nat := 0
  mode : Option Nat := none
  clock : Option Nat := none
  signals : List (Option Nat)
  deriving DecidableEq, Repr

/-- A bundle class: the number of its signals, its signal lists, the class and the connect method of its
sub-bundles, and the elements of its bundle lists. -/
inductive Cls
  | mk (signals : Nat) (lists : List Nat) (subs : List (Nat × Cls)) (elems : List Inst)

structure St where
  /-- The next free address. -/
  next : Nat
  objs : Nat → Obj
  /-- The signals of the signal lists. -/
  lists : Nat → List (Option Nat)

def St.setObj (s : St) (a : Nat) (o : Obj) : St :=
  { s with objs := fun b => if b = a then o else s.objs b }

def St.setList (s : St) (a : Nat) (l : List (Option Nat)) : St :=
  { s with lists := fun b => if b = a then l else s.lists b }

/-- `SignalList.from_signallist` (107-113): a new object with a copy of the list. -/
def copyList (t : Nat) (s : St) : Nat × St :=
  (s.next, { s.setList s.next (s.lists t) with next := s.next + 1 })

/-- The loop over the signal lists (416-418). -/
def copyLists : List Nat → St → List Nat × St
  | [], s => ([], s)
  | t :: ts, s =>
    let (a, s) := copyList t s
    let (as, s) := copyLists ts s
    (a :: as, s)

mutual

/-- `Bundle.__init__` (389-423), and the connect method that the caller sets (412). The elements of the
bundle lists are those of the class (421-423 with 148-154). -/
def create : Cls → Nat → St → Inst × St
  | .mk n ts cs es, m, s =>
    let a := s.next
    let s := { s.setObj a { method := m, signals := List.replicate n none } with next := a + 1 }
    let (is, s) := createAll cs s
    let (ls, s) := copyLists ts s
    (.mk a ls is es, s)

/-- The loop over the sub-bundles (409-413). -/
def createAll : List (Nat × Cls) → St → List Inst × St
  | [], s => ([], s)
  | (m, c) :: cs, s =>
    let (i, s) := create c m s
    let (is, s) := createAll cs s
    (i :: is, s)

end

/-- The loop over the signal lists of an object. -/
def walkLists (g : Nat → List (Option Nat) → List (Option Nat)) : List Nat → St → St
  | [], s => s
  | a :: as, s => walkLists g as (s.setList a (g a (s.lists a)))

mutual

/-- A method that changes a bundle and everything below it. `bind` (691-715, 1303-1380) with `__unbind_all`
(1292-1301), `set_write_mode` (604-634), `set_name`, `set_prefix`, `set_regex` and `set_dict` (543-602) all
are of this form: they change `self`, its signal lists, and recursively the sub-bundles and the elements of
the bundle lists, in ways that the functions `f` and `g` describe. -/
def walk (f : Nat → Obj → Obj) (g : Nat → List (Option Nat) → List (Option Nat)) : Inst → St → St
  | .mk a ls is es, s =>
    let s := s.setObj a (f a (s.objs a))
    let s := walkLists g ls s
    let s := walkAll f g is s
    walkAll f g es s

def walkAll (f : Nat → Obj → Obj) (g : Nat → List (Option Nat) → List (Option Nat)) :
    List Inst → St → St
  | [], s => s
  | i :: is, s => walkAll f g is (walk f g i s)

end

/-- A program: instances are created, and methods are called on them. -/
inductive Act
  | create (c : Cls)
  | call (k : Nat) (f : Nat → Obj → Obj) (g : Nat → List (Option Nat) → List (Option Nat))

structure Prog where
  st : St
  insts : List Inst

def step (p : Prog) : Act → Prog
  | .create c =>
    let (i, s) := create c 0 p.st
    ⟨s, p.insts ++ [i]⟩
  | .call k f g =>
    match p.insts[k]? with
    | some i => { p with st := walk f g i p.st }
    | none => p

def run (p : Prog) (as : List Act) : Prog := as.foldl step p

/-! ### What an instance shows -/

mutual

/-- What the objects of an instance contain, in order; with `deep = false`, without the elements of
bundle lists. -/
def view (deep : Bool) (s : St) : Inst → List Obj × List (List (Option Nat))
  | .mk a ls is es =>
    let v := viewAll deep s is
    let w := if deep then viewAll deep s es else ([], [])
    (s.objs a :: v.1 ++ w.1, ls.map s.lists ++ v.2 ++ w.2)

def viewAll (deep : Bool) (s : St) : List Inst → List Obj × List (List (Option Nat))
  | [] => ([], [])
  | i :: is =>
    let v := view deep s i
    let w := viewAll deep s is
    (v.1 ++ w.1, v.2 ++ w.2)

end

/-- The pins that an instance is connected to. -/
def pins (s : St) (i : Inst) : List Nat :=
  let v := view true s i
  (v.1.flatMap (·.signals) ++ v.2.flatten).filterMap id

/-- `assign` on a bundle (814-900): some pins that it is connected to get values. -/
def assign (s : St) (i : Inst) (vals : Nat → Option Int) (dev : Nat → Int) (p : Nat) : Int :=
  if p ∈ pins s i then (vals p).getD (dev p) else dev p

end Toffee.Instances
