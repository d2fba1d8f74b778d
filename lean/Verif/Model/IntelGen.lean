import Verif.Model.Dict

/-!
Model of `scripts/bundle_code_intel_gen.py`: the generator that turns the tree of signal names of a
device (a JSON file) into nested `Bundle` classes, one class for all bundles with the same content.

The JSON data is a tree: a dictionary is a node, its dictionary values are its children, and the node
is a signal if it has a value that is not a dictionary (lines 134-136: `leaf |= 1`).

Simplifications:
* `hash` and the iteration order of a Python set are parameters (`Py`): the order is a function of
  the elements in the order in which they were inserted;
* the fields of `logs` and `insides` that are written and never read are left out (the full names, the
  sons in `logs`, the kind in `insides`), so of `prefix` only `prefix != ""` matters;
* the output is a list of class definitions instead of the text of it;
* a failing look-up (`KeyError`) sets the flag `err`.
-/

namespace Toffee.IntelGen

abbrev Text := List Char

mutual
/-- A JSON dictionary: whether it has a value that is not a dictionary, and its dictionaries. -/
inductive Tree
  | mk (val : Bool) (kids : Forest)
/-- The dictionaries in a dictionary, with their keys in order. -/
inductive Forest
  | nil
  | cons (n : Text) (t : Tree) (rest : Forest)
end

/-- The children as a list. -/
def Forest.toList : Forest → List (Text × Tree)
  | .nil => []
  | .cons n t rest => (n, t) :: rest.toList

def Tree.val : Tree → Bool | .mk v _ => v
def Tree.kids : Tree → List (Text × Tree) | .mk _ f => f.toList

/-- The second result of `visit` (37, 42, 136): 1 for a signal, 2 for a bundle, 3 for both. -/
def Tree.leaf (t : Tree) : Nat :=
  (if t.val then 1 else 0) ||| (if t.kids = [] then 0 else 2)

/-- An element of a set: a name or a number. -/
inductive Elt
  | name (s : Text)
  | num (i : Int)
  deriving DecidableEq, Repr

/-- `str` of an integer. -/
def str : Int → Text
  | .ofNat n => Nat.toDigits 10 n
  | .negSucc n => '-' :: Nat.toDigits 10 (n + 1)

/-- `f"{num}"` (10). -/
def Elt.text : Elt → Text
  | .name s => s
  | .num i => str i

/-- The parts of the interpreter the program depends on: `hash` of a text, and the order in which the
elements of a set are visited. -/
structure Py where
  hash : Text → Int
  order : List Elt → List Elt

/-- `set.add`. -/
def add (e : Elt) (s : List Elt) : List Elt := if e ∈ s then s else s ++ [e]

/-- `set_hash` (7-11). -/
def setHash (py : Py) (s : List Elt) : Int :=
  py.hash ((py.order s).foldl (fun r e => r ++ ('_' :: e.text)) ['_'])

/-- An entry of `logs` (62-69): `son_leaf`, `inside_hash`, `son_name`. -/
structure Log where
  leaf : Nat
  inside : Int
  name : Text
  deriving DecidableEq, Repr

/-- An entry of `insides` (73, 76, 101, 113): the number of the class and the names of its signals. -/
structure Inside where
  cls : Option Nat
  sigs : List Text
  deriving DecidableEq, Repr

/-- A class definition of the output (78-80, 115-117, 119-126): its number, the lines
`attribute = class.from_prefix(prefix)`, the signals and the argument of `Signals` (1 for `Signal()`). -/
structure Cls where
  id : Nat
  subs : List (Text × Nat × Text)
  sigs : List Text
  count : Nat
  deriving DecidableEq, Repr

/-- `logs`, `insides`, `bundle_names_counter` and the printed classes. -/
structure St where
  logs : Dict Elt Log := []
  insides : Dict Int Inside := []
  count : Nat := 0
  out : List Cls := []
  err : Bool := false
  deriving DecidableEq, Repr

/-- The name of a member of the class (99-100, 106-108). -/
def mark (top : Bool) (n : Text) : Text := if top then n else '_' :: n

/-- `boths` (83, 86, 97-98). -/
def bothStep (d : Dict Text Bool) (l : Log) : Dict Text Bool :=
  let d := d.set l.name false
  if l.leaf &&& 1 ≠ 0 ∧ l.leaf &&& 2 ≠ 0 then d.set l.name true else d

/-- `son_bundles` (82, 89-93). -/
def groupStep (d : Dict Int (List Text)) (l : Log) : Dict Int (List Text) :=
  if l.leaf &&& 2 ≠ 0 then
    (if d.has l.inside then d else d.set l.inside []).modify l.inside (· ++ [l.name])
  else d

/-- The own signals (95, 99-101). -/
def ownSigs (top : Bool) (ls : List Log) : List Text :=
  (ls.filter fun l => l.leaf &&& 1 ≠ 0).map fun l => mark top l.name

/-- The body of the loop over the bundles of one kind (105-117): the signal names and the
`from_prefix` lines so far. -/
def memberStep (top both : Bool) (i : Inside) (n : Text) (r : List Text × List (Text × Nat × Text)) :
    List Text × List (Text × Nat × Text) :=
  if both then (r.1 ++ i.sigs.map (mark top n ++ ·), r.2)
  else (r.1, r.2 ++ [(mark top n, i.cls.getD 0, mark top n)])

/-- The loops 103-117. -/
def members (top : Bool) (insides : Dict Int Inside) (boths : Dict Text Bool)
    (groups : Dict Int (List Text)) (own : List Text) : List Text × List (Text × Nat × Text) :=
  groups.foldl (fun r g => g.2.foldl (fun r n =>
    memberStep top ((boths.get? n).getD false) ((insides.get? g.1).getD ⟨none, []⟩) n r) r) (own, [])

/-- A new entry of `insides` and, for a bundle, its class (72-130). -/
def newInside (py : Py) (top : Bool) (leaf : Nat) (inside : Int) (sons : List Elt) (st : St) : St :=
  let st := { st with insides := st.insides.set inside ⟨none, []⟩ }
  if leaf &&& 2 ≠ 0 then
    let ls := (py.order sons).filterMap st.logs.get?
    let groups := ls.foldl groupStep []
    let m := members top st.insides (ls.foldl bothStep []) groups (ownSigs top ls)
    { st with
      insides := st.insides.set inside ⟨some st.count, m.1⟩
      count := st.count + 1
      out := st.out ++ [⟨st.count, m.2, m.1, if m.1.length > 1 then m.1.length else 1⟩]
      err := st.err || !(py.order sons).all st.logs.has || !groups.all fun g => st.insides.has g.1 }
  else st

/-- One son that is a dictionary, after the visit of it (52-133). -/
def enter (py : Py) (top : Bool) (n : Text) (leaf : Nat) (grandsons : List Elt) (st : St) : Elt × St :=
  let inside := setHash py grandsons
  let cur := add (.num leaf) (add (.num inside) (add (.name n) []))
  let son := Elt.num (setHash py cur)
  let st := if st.logs.has son then st else { st with logs := st.logs.set son ⟨leaf, inside, n⟩ }
  let st := if st.insides.has inside then st else newInside py top leaf inside grandsons st
  (son, st)

mutual
/-- `visit` (36-139): the sons and the new state; `top` says that the prefix is empty. -/
def visitTree (py : Py) (top : Bool) : Tree → St → List Elt × St
  | .mk _ f, st => visitKids py top f [] st
/-- The loop of `visit` (39-136) with the set `sons`; the prefix of a son is never empty (43-48). -/
def visitKids (py : Py) (top : Bool) : Forest → List Elt → St → List Elt × St
  | .nil, sons, st => (sons, st)
  | .cons n t rest, sons, st =>
    let r := visitTree py false t st
    let e := enter py top n t.leaf r.1 r.2
    visitKids py top rest (add e.1 sons) e.2
end

/-- `main` (142-155): the classes printed, and whether a look-up failed. -/
def main (py : Py) (module : Text) (data : Tree) : St :=
  (visitTree py true (.mk false (.cons module data .nil)) {}).2

end Toffee.IntelGen
