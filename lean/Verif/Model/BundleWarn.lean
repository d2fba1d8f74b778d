import Verif.Model.Bundle

/-!
What `bind` and `from_dict` report in the log, and `from_prefix` with a DUT (`toffee/bundle.py`).

Simplification: the text around path and rule is left out.
-/

namespace Toffee.Bundle

/-- The inner loop of `__detect_missing_signals` over one signal list (1260-1275): the warnings (path
and rule string) and `level_string` afterwards.  The loop assigns the path of a missing signal to
`level_string` itself (1264-1266), so the path of the next missing signal is appended to it. -/
def listWarn (connected : List Name) (name : Name) (txt : Name → Option Name) :
    Nat → List (Name × Slot) → Name → List (Name × Option Name) × Name
  | _, [], level => ([], level)
  | i, e :: es, level =>
    if e.1 ∈ connected then listWarn connected name txt (i + 1) es level
    else
      let level' := appended level (indexed name i)
      let r := listWarn connected name txt (i + 1) es level'
      ((level', txt e.1) :: r.1, r.2)

/-- The loop over the signal lists (1260). -/
def listsWarn (connected : List Name) (txt : Name → Option Name) :
    List (Name × List (Name × Slot)) → Name → List (Name × Option Name)
  | [], _ => []
  | l :: ls, level =>
    let r := listWarn connected l.1 txt 0 l.2 level
    r.1 ++ listsWarn connected txt ls r.2

/-- The warnings of `__detect_missing_signals` (1248-1275) for one level. -/
def levelWarn (connected : List Name) (level : Name) (txt : Name → Option Name) (lv : Level) :
    List (Name × Option Name) :=
  (lv.signals.filter fun c => c.name ∉ connected).map
      (fun c => (appended level c.name, txt c.name)) ++
    listsWarn connected txt lv.lists level

mutual
/-- The warnings of `__bind_from_signal_list` (1303-1402) with `detection_mode=False`.  `none` stands
for a rule string whose computation raises `TypeError`; the warnings after it are not written. -/
def Bundle.warn : Name → Stack → Name → Bundle → List Sig → List (Name × Option Name)
  | level, st, nm, .mk r lv c ks, sigs =>
    let a := connect r lv c sigs
    let st' := st ++ [(.mk r lv c ks, nm)]
    levelWarn a.connected level (ruleText st') lv ++ Kids.warn level st' ks a.matching
def Kids.warn : Name → Stack → Kids → List Sig → List (Name × Option Name)
  | _, _, .nil, _ => []
  | level, st, .cons l b ks, sigs =>
    Bundle.warn (appended level l.text) st (kidName true st l) b sigs ++
      Kids.warn level st ks (Bundle.bindList true b sigs).2.1
end

/-- The warnings of `bind` (681-715) of a bundle with the given `name` (543-555), up to the first
whose rule string raises. -/
def Bundle.warnings (name : Name) (b : Bundle) (dut : List DutSig) : List (Name × Option Name) :=
  b.warn name [] name (dutSignals dut)

/-- The outcome of `bind` (681-715): `none` if a rule string raises `TypeError`, which `bind` does not
catch; otherwise the bundle, the connected pins and the warnings written.  (The state that a raising
`bind` leaves: `Inst.bind`.) -/
def Bundle.bindResult (access : Bool) (name : Name) (b : Bundle) (dut : List DutSig) :
    Option ((Bundle × List Nat) × List (Name × Name)) :=
  ((b.warnings name dut).mapM fun (x : Name × Option Name) => x.2.map fun t => (x.1, t)).map fun ws =>
    (b.bind access dut, ws)

/-- The keys named in the warning of `__check_dict_value` (1404-1428), called by `from_dict`
(1005-1021) and `set_dict` (587-600) on the bundle with the rule `d`; there is no warning if the list
is empty. -/
def Bundle.dictReport (b : Bundle) (d : List (Name × Name)) : List Name :=
  (b.detect (d.map fun kv => { name := kv.2, org := kv.1, pin := 0, event := 0 })).map Sig.org

/-- An attribute of a DUT: its name, whether the name of its class contains `XData`, and the pin and
its event if the attribute is one (`__is_instance_of_xpin` 1511-1527). -/
structure Attr where
  name : Name
  xdata : Bool
  pin : Option (Nat × Nat)
  deriving DecidableEq, Repr

/-- `dut_all_signals` (1529-1547) in terms of the attributes. -/
def attrSignals (dut : List Attr) : List DutSig :=
  dut.filterMap fun a => a.pin.map fun p => ⟨a.name, p.1, p.2⟩

/-- `from_prefix(prefix, dut)` (962-985) of a class without sub-bundles and lists whose own signals
are `own`. -/
def fromPrefix (own : List Cell) (pre : Name) (dut : List Attr) : Bundle :=
  .mk (.pre pre)
    { signals := own ++ (dut.filter fun a => pre.isPrefixOf a.name && a.xdata).map
        fun a => ⟨a.name.drop pre.length, false, .absent⟩
      lists := [] }
    none .nil

end Toffee.Bundle
