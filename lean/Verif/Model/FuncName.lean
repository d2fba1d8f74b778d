/-!
The text under which `CovGroup.mark_function` records a function that is given as an object
(`toffee/funcov.py` 38-98 `get_func_full_name`, 385-390).

Simplified: what `inspect` and the import system say about a function (file, source lines) is data of the
function.  Functions without source (built-in ones) and callables that are no functions
(`functools.partial`), for which `inspect` raises, are those that "cannot be marked" in
`Verif.Model.FunCovArgs`.  `im_class` (86-94) does not exist in Python 3.  Text is a list of characters.
-/

namespace Toffee.FuncName

abbrev Text := List Char

/-- Where the code of a function stands: absolute path, number of the first line, number of lines. -/
structure Code where
  file : Text
  start : Nat
  len : Nat
deriving DecidableEq, Repr

/-- A function object.  `inner` are the codes of the functions along the chain of `__wrapped__`
attributes, as set by `functools.wraps`: empty for a function that is not decorated in this way. -/
structure Fn where
  id : Nat
  code : Code
  inner : List Code
  /-- `__name__` -/
  name : Text
  /-- `__qualname__` -/
  qual : Text
deriving DecidableEq, Repr

/-- What is given to `mark_function`: a function (also: a static method, or a method taken from its
class), a method of an instance (with the `__name__` of the class of the instance), a class method (with
the `__name__` of the class). -/
inductive Ref where
  | func (f : Fn)
  | bound (cls : Text) (f : Fn)
  | classMethod (cls : Text) (f : Fn)
deriving DecidableEq, Repr

/-- `inspect.getsourcefile` (47): does not follow `__wrapped__`. -/
def sourceFile (f : Fn) : Text := f.code.file

/-- `inspect.getsourcelines` (48-49): follows `__wrapped__` to the end. -/
def sourceLines (f : Fn) : Nat × Nat :=
  match f.inner.getLast? with
  | some c => (c.start, c.len)
  | none => (f.code.start, f.code.len)

/-- `"%d" % n`. -/
def dec (n : Nat) : Text := Nat.toDigits 10 n

/-- `str.split(".")` (74). -/
def split : Text → List Text
  | [] => [[]]
  | c :: t =>
    if c = '.' then [] :: split t
    else match split t with
      | p :: ps => (c :: p) :: ps
      | [] => [[c]]

/-- `".".join` (76). -/
def join : List Text → Text
  | [] => []
  | [p] => p
  | p :: q :: ps => p ++ '.' :: join (q :: ps)

/-- `"%s:%d-%d::%s::%s"` (55-61, 65-71, 77-83). -/
def withClass (cls : Text) (f : Fn) : Text :=
  let (first, len) := sourceLines f
  sourceFile f ++ [':'] ++ dec first ++ ['-'] ++ dec (first + len - 1) ++ [':', ':'] ++ cls ++ [':', ':'] ++
    f.name

/-- `"%s:%d-%d::%s"` (96-98). -/
def withoutClass (f : Fn) : Text :=
  let (first, len) := sourceLines f
  sourceFile f ++ [':'] ++ dec first ++ ['-'] ++ dec (first + len - 1) ++ [':', ':'] ++ f.name

/-- `get_func_full_name` (38-98). -/
def fullName : Ref → Text
  | .bound cls f => withClass cls f
  | .classMethod cls f => withClass cls f
  | .func f =>
    if '.' ∈ f.qual then
      let parts := split f.qual
      if parts.length > 1 then withClass (join parts.dropLast) f else withoutClass f
    else withoutClass f

/-- The entries of the set of a bin after functions were added to it (380-390). -/
def record (marks : List Text) (rs : List Ref) : List Text :=
  rs.foldl (fun ms r => if fullName r ∈ ms then ms else ms ++ [fullName r]) marks

end Toffee.FuncName
