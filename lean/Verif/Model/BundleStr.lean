/-! The text of a bundle: `Bundle.__str__` (`toffee/bundle.py` 1158-1194), `SignalList.__str__` (104-108),
`BundleList.__str__` (142-146), `UnconnectedSignal.__str__` (54-55).

Simplified: what `str` gives for a connected signal is a parameter (it is up to the DUT); text is a list of
characters. -/

namespace Toffee.BundleStr

abbrev Text := List Char

mutual
/-- A bundle: the name of its class (1194), `current_level_signals` with what `str` of the attribute gives, `none` if
there is no such attribute (a name in the list `signals` before `bind`, or one that `bind` did not find), the signal lists,
the sub-bundles and the bundle lists. -/
inductive Bun
  | mk (cls : Text) (signals : List (Text × Option Text)) (lists : List (Text × List Text)) (subs : Subs) (blists : BLists)
/-- The sub-bundles with their attributes, in the order of `dir` (1205-1207). -/
inductive Subs
  | nil
  | cons (n : Text) (b : Bun) (rest : Subs)
/-- The bundle lists with their attributes, in the order of `dir` (1231-1233). -/
inductive BLists
  | nil
  | cons (n : Text) (bs : Elems) (rest : BLists)
/-- The elements of a bundle list. -/
inductive Elems
  | nil
  | cons (b : Bun) (rest : Elems)
end

/-- `", "` -/
def sep : Text := [',', ' ']

/-- `", ".join(items)` -/
def join : List Text → Text
  | [] => []
  | [x] => x
  | x :: y :: l => x ++ sep ++ join (y :: l)

/-- `f"{name}: {value}"` -/
def item (n v : Text) : Text := n ++ [':', ' '] ++ v

/-- `f"{cls}({items})"` -/
def paren (cls items : Text) : Text := cls ++ ['('] ++ items ++ [')']

/-- `str(UnconnectedSignal())` (54-55). -/
def unconnected : Text := "UnconnectedSignal()".toList

/-- `f"{idx}"` -/
def num (i : Nat) : Text := Nat.toDigits 10 i

/-- The signals of the level (1161-1166); `none`: `getattr` raises. -/
def sigItems : List (Text × Option Text) → Option (List Text)
  | [] => some []
  | (n, some v) :: l => (sigItems l).map (item n v :: ·)
  | (_, none) :: _ => none

/-- The elements of a signal list (105-107), the first of them number `i`. -/
def idxItems (i : Nat) : List Text → List Text
  | [] => []
  | v :: l => item (num i) v :: idxItems (i + 1) l

/-- `SignalList.__str__` (104-108). -/
def strList (vs : List Text) : Text := paren "SignalList".toList (join (idxItems 0 vs))

/-- `item_str + ", " + part`, if there is a part (1187-1192). -/
def append (s part : Text) : Text := if part = [] then s else s ++ sep ++ part

mutual
/-- `Bundle.__str__` (1158-1194); `none`: it raises. -/
def Bun.str : Bun → Option Text
  | .mk cls signals lists subs blists =>
    match sigItems signals, subs.items, blists.items with
    | some s, some sb, some bl =>
      some (paren cls (append (append (append (join s) (join (lists.map fun l => item l.1 (strList l.2)))) (join sb)) (join bl)))
    | _, _, _ => none
/-- 1173-1178 -/
def Subs.items : Subs → Option (List Text)
  | .nil => some []
  | .cons n b rest =>
    match b.str, rest.items with
    | some s, some l => some (item n s :: l)
    | _, _ => none
/-- 1179-1184 -/
def BLists.items : BLists → Option (List Text)
  | .nil => some []
  | .cons n bs rest =>
    match bs.items 0, rest.items with
    | some s, some l => some (item n (paren "BundleList".toList (join s)) :: l)
    | _, _ => none
/-- The elements of a bundle list (143-145), the first of them number `i`. -/
def Elems.items (i : Nat) : Elems → Option (List Text)
  | .nil => some []
  | .cons b rest =>
    match b.str, rest.items (i + 1) with
    | some s, some l => some (item (num i) s :: l)
    | _, _ => none
end

end Toffee.BundleStr
