/-!
Model of `scripts/bundle_code_gen.py` 6-58 (`__gen_bundle_code`), character by character, and of the
signal selection of `gen_bundle_code_from_prefix` (77-86) and `gen_bundle_code_from_dict` (145-154).

Texts are lists of characters.  `gen_bundle_code_from_regex` and the trailing `bundle = …` line are in
`Verif.Model.CodeRun`.
-/

namespace Toffee.CodeGen

abbrev Text := List Char

/-- `TAB_SIZE` (`bundle_code_gen.py` 30). -/
def tabSize : Int := 4

/-- `str(n)` for a natural number. -/
def str (n : Nat) : Text := Nat.toDigits 10 n

/-- `end_code` (`bundle_code_gen.py` 21-24). -/
def endCode (n : Nat) : Text :=
  if n = 0 then " = Signal()".toList else " = Signals(".toList ++ str n ++ ")".toList

/-- The inner loop (`bundle_code_gen.py` 38-43): the line, its width and the signals left. -/
def inner (maxWidth : Int) : List Text → Text → Int → Text × Int × List Text
  | [], line, width => (line, width, [])
  | s :: rest, line, width =>
    if width + s.length + 2 ≤ maxWidth then
      inner maxWidth rest (line ++ (s ++ ", ".toList)) (width + (s.length + 2))
    else (line, width, s :: rest)

theorem inner_length (maxWidth : Int) (ss : List Text) (line : Text) (width : Int) :
    (inner maxWidth ss line width).2.2.length ≤ ss.length := by
  induction ss generalizing line width with
  | nil => simp [inner]
  | cons s rest ih =>
    unfold inner
    split
    · exact Nat.le_trans (ih _ _) (Nat.le_succ _)
    · exact Nat.le_refl _

/-- The outer loop (`bundle_code_gen.py` 31-56): all declaration lines. -/
def outer (maxWidth : Int) (endc : Text) : List Text → Text
  | [] => []
  | s :: rest =>
    let r := inner maxWidth rest ("\t".toList ++ (s ++ ", ".toList)) (tabSize + s.length + 2 + 1)
    if r.2.2 = [] then
      let line := r.1.dropLast.dropLast
      let width := r.2.1 - 3
      if width + endc.length ≤ maxWidth then line ++ (endc ++ "\n".toList)
      else line ++ (" \\\n\t".toList ++ endc.drop 1 ++ "\n".toList)
    else
      (r.1 ++ "\\\n".toList) ++ outer maxWidth endc r.2.2
  termination_by ss => ss.length
  decreasing_by
    have := inner_length maxWidth rest ("\t".toList ++ (s ++ ", ".toList))
      (tabSize + s.length + 2 + 1)
    simp only [List.length_cons] at *
    omega

/-- The declaration part of the generated class body (`bundle_code_gen.py` 19-58). -/
def declaration (signals : List Text) (maxWidth : Int) : Text :=
  outer maxWidth (endCode signals.length) signals

/-- The whole text returned (`bundle_code_gen.py` 26, 58). -/
def genBundleCode (name : Text) (signals : List Text) (maxWidth : Int) : Text :=
  "from toffee import Bundle\nfrom toffee import Signals, Signal\n\nclass ".toList ++ name ++
    "(Bundle):\n".toList ++ declaration signals maxWidth

/-- Lexicographic order on texts by code point (Python's `str` comparison). -/
def textLe : Text → Text → Bool
  | [], _ => true
  | _ :: _, [] => false
  | a :: s, b :: t => if a.toNat < b.toNat then true else if b.toNat < a.toNat then false else textLe s t

/-- Insertion before the first larger element. -/
def insert (x : Text) : List Text → List Text
  | [] => [x]
  | y :: l => if textLe x y then x :: y :: l else y :: insert x l

/-- `signals.sort()`: an insertion sort; equal texts are indistinguishable, so any sorting algorithm
gives this list. -/
def sort : List Text → List Text
  | [] => []
  | x :: l => insert x (sort l)

/-- The signals chosen by `gen_bundle_code_from_prefix` (`bundle_code_gen.py` 77-86); `none` is the
assertion failure. -/
def selectPrefix (pins : List Text) (pre : Text) : Option (List Text) :=
  let l := sort ((pins.filter (fun n => pre.isPrefixOf n)).map (fun n => n.drop pre.length))
  if l = [] then none else some l

/-- The signals chosen by `gen_bundle_code_from_dict` (`bundle_code_gen.py` 145-154). -/
def selectDict (pins : List Text) (d : List (Text × Text)) : Option (List Text) :=
  let l := sort ((d.filter (fun e => pins.contains e.2)).map Prod.fst)
  if l = [] then none else some l

end Toffee.CodeGen
