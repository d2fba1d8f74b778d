import Verif.Model.Bundle

/-! `Bundle.__getitem__` (`toffee/bundle.py` 1117-1128). -/

namespace Toffee.Bundle

/-- What an attribute of a bundle may be: a signal, a `SignalList`, a sub-bundle, a `BundleList` (its name is
given for its elements), anything else (methods, `name`, `bound`, ...). -/
inductive Item
  | signal (s : Slot)
  | signalList (es : List (Name × Slot))
  | sub (b : Bundle)
  | bundleList (n : Name)
  | other

/-- The children among the attributes (`__all_sub_bundles` 1196-1207, `__all_bundle_lists` 1222-1233). -/
def Kids.attr (key : Name) : Kids → Option Item
  | .nil => none
  | .cons (.sub n) b ks => if n = key then some (.sub b) else ks.attr key
  | .cons (.elem n _) _ ks => if n = key then some (.bundleList n) else ks.attr key

/-- `__getitem__` (1117-1128): `getattr(self, key, None)`; `none` is `None`.  `oth` are the names of the attributes
that are neither signals nor bundles nor lists of these.  The names of the attributes are taken to be
different, so the order of the search is of no importance.  A name of `signals` that has no attribute yet gives
`None` as well. -/
def Bundle.item (oth : Name → Bool) (b : Bundle) (key : Name) : Option Item :=
  match b.lvl.signals.find? (fun c => c.name == key) with
  | some c => if c.slot = .absent then none else some (.signal c.slot)
  | none =>
    match b.lvl.lists.find? (fun l => l.1 == key) with
    | some l => some (.signalList l.2)
    | none =>
      match b.kids.attr key with
      | some i => some i
      | none => if oth key then some .other else none

end Toffee.Bundle
