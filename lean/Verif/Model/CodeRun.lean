import Verif.Model.CodeGen

/-! The whole text that the three generators of `scripts/bundle_code_gen.py` return: the class of
`Verif.Model.CodeGen` and the line that makes a bundle of it.

A regular expression is a text; what it does to a name (`re.search`, then joining the groups) is a
parameter. -/

namespace Toffee.CodeRun

open Toffee.CodeGen

/-- `gen_bundle_code_from_prefix` (`bundle_code_gen.py` 61-92); `none` is the assertion failure. The pins
are the names of `Bundle.dut_all_signals(dut)`. -/
def genPrefix (name : Text) (pins : List Text) (pre : Text) (width : Int) : Option Text :=
  match selectPrefix pins pre with
  | none => none
  | some l => some (genBundleCode name l width ++ "\n".toList ++
      "bundle = ".toList ++ name ++ ".from_prefix(\"".toList ++ pre ++ "\")\n".toList)

/-- The signals chosen by `gen_bundle_code_from_regex` (108-121). -/
def selectRegex (re : Text → Text → Option Text) (pins : List Text) (rx : Text) : Option (List Text) :=
  let l := sort (pins.filterMap (re rx))
  if l = [] then none else some l

/-- `gen_bundle_code_from_regex` (95-127). -/
def genRegex (re : Text → Text → Option Text) (name : Text) (pins : List Text) (rx : Text)
    (width : Int) : Option Text :=
  match selectRegex re pins rx with
  | none => none
  | some l => some (genBundleCode name l width ++ "\n".toList ++
      "bundle = ".toList ++ name ++ ".from_regex(r\"".toList ++ rx ++ "\")\n".toList)

/-- `repr` of a string without quotes, backslashes and unprintable characters. -/
def reprStr (s : Text) : Text := "'".toList ++ s ++ "'".toList

/-- The entries of `repr` of a dictionary of such strings. -/
def reprItems : List (Text × Text) → Text
  | [] => []
  | [e] => reprStr e.1 ++ ": ".toList ++ reprStr e.2
  | e :: l => reprStr e.1 ++ ": ".toList ++ reprStr e.2 ++ ", ".toList ++ reprItems l

/-- `gen_bundle_code_from_dict` (130-160); the dictionary is printed by an f-string, that is by `repr`. -/
def genDict (name : Text) (pins : List Text) (d : List (Text × Text)) (width : Int) : Option Text :=
  match selectDict pins d with
  | none => none
  | some l => some (genBundleCode name l width ++ "\n".toList ++
      "bundle = ".toList ++ name ++ ".from_dict({".toList ++ reprItems d ++ "})\n".toList)

end Toffee.CodeRun
