/-!
Model of the bundle tree and of binding (`toffee/bundle.py`).

A bundle is a tree: every node has a naming rule, the slots of its own level, a clock event and its
child bundles in the order in which the code visits them (sub-bundles, then the elements of the
bundle lists: `__bind_from_signal_list` 1372-1399).  Attribute values are kept in the tree, so an
assignment to an attribute is a functional update.

Simplifications:
* names are lists of characters;
* a regular expression is its text together with an arbitrary partial function from names to names
  (`re.search` followed by joining the groups, 262-265);
* the attribute names of the signals, signal lists, sub-bundles and bundle lists of one bundle do
  not clash (`Verif.Model.Attrs` has what happens if they do);
* the log output is not modelled here (the warnings of `bind` are in `Verif.Model.BundleWarn`);
* the flags of `__bind_from_signal_list` select one of four functions here: `bind`, `detect`,
  `detectSpecific` and `rules`.
Sharing of `BundleList` elements between instances of a class is the subject of
`Verif.Model.Instances`.
-/

namespace Toffee.Bundle

abbrev Name := List Char

/-- The content of a signal slot: no attribute at all (a name of the class attribute `signals`
before bind), a `Signal()` placeholder (`UnconnectedSignal`, 47-58), a `DummySignal` (24-34), or a
pin of the DUT. -/
inductive Slot
  | absent
  | unconnected
  | dummy
  | pin (p : Nat)
  deriving DecidableEq, Repr

/-- `PrefixBindMethod` (206), `RegexBindMethod` (258), `DictBindMethod` (317); the dictionary in
insertion order. -/
inductive Rule
  | pre (p : Name)
  | regex (pat : Name) (f : Name → Option Name)
  | dict (d : List (Name × Name))

/-- The matching part of the three `bind` methods: the name a signal has inside the bundle, or
`none` if the rule does not match (220-222, 268-271, 326-328). -/
def Rule.strip : Rule → Name → Option Name
  | .pre p, n => if p.isPrefixOf n then some (n.drop p.length) else none
  | .regex _ f, n => f n
  | .dict d, n => (d.find? (fun kv => kv.2 == n)).map (·.1)

/-- A signal of the current level: its name, whether the class has an attribute `name = Signal()`
(otherwise the name comes from the class attribute `signals`), and its content
(`__set_current_level_signal` 1070-1083). -/
structure Cell where
  name : Name
  cls : Bool
  slot : Slot
  deriving DecidableEq, Repr

/-- The content of the slot when the instance has no attribute of that name. -/
def Cell.base (c : Cell) : Slot := if c.cls then .unconnected else .absent

/-- One level of a bundle: `current_level_signals` and the signal lists (`SignalList` 67-116: the
names and the signals of the list). -/
structure Level where
  signals : List Cell
  lists : List (Name × List (Name × Slot))
  deriving DecidableEq, Repr

/-- The attribute under which a child bundle is found. -/
inductive Label
  | sub (n : Name)
  | elem (n : Name) (i : Nat)
  deriving DecidableEq, Repr

mutual
/-- A bundle instance (`Bundle.__init__` 388-423). -/
inductive Bundle
  | mk (rule : Rule) (lvl : Level) (clock : Option Nat) (kids : Kids)
/-- The children of a bundle, in visiting order. -/
inductive Kids
  | nil
  | cons (l : Label) (b : Bundle) (rest : Kids)
end

namespace Bundle
def rule : Bundle → Rule | mk r _ _ _ => r
def lvl : Bundle → Level | mk _ l _ _ => l
/-- `__clock_event`. -/
def clock : Bundle → Option Nat | mk _ _ c _ => c
def kids : Bundle → Kids | mk _ _ _ k => k
end Bundle

/-- An entry of the signal lists handed around by `bind`: `{"name", "org_name", "signal"}`; the
signal is a pin with its event (`dut_all_signals` 1529-1547). -/
structure Sig where
  name : Name
  org : Name
  pin : Nat
  event : Nat
  deriving DecidableEq, Repr

/-- A slot of one level: a signal, or an index of a signal list. -/
inductive Pos
  | sig (n : Name)
  | elem (l i : Nat)
  deriving DecidableEq, Repr

/-- `get_matching_signal_list` (186-203) followed by `names.index` (89). -/
def findList : List (Name × List (Name × Slot)) → Name → Option (Nat × Nat)
  | [], _ => none
  | l :: ls, n =>
    if n ∈ l.2.map Prod.fst then some (0, (l.2.map Prod.fst).idxOf n)
    else (findList ls n).map fun p => (p.1 + 1, p.2)

/-- The slot of the level called `n`: the `if`/`elif` of the `bind` methods (224, 236). -/
def Level.find (lv : Level) (n : Name) : Option Pos :=
  if n ∈ lv.signals.map Cell.name then some (.sig n)
  else (findList lv.lists n).map fun p => .elem p.1 p.2

/-- `setattr(bundle, n, s)` on the signals of the level. -/
def setSig (n : Name) (s : Slot) (cs : List Cell) : List Cell :=
  cs.map fun c => if c.name = n then { c with slot := s } else c

/-- `signal_list.signals[i] = s`. -/
def setElem (ls : List (Name × List (Name × Slot))) (l i : Nat) (s : Slot) :
    List (Name × List (Name × Slot)) :=
  ls.modify l fun e => (e.1, e.2.modify i fun x => (x.1, s))

/-- `__add_signal_attr` (1130-1143) / `SignalList.bind_signal` (82-94). -/
def Level.put (lv : Level) (p : Pos) (s : Slot) : Level :=
  match p with
  | .sig n => { lv with signals := setSig n s lv.signals }
  | .elem l i => { lv with lists := setElem lv.lists l i s }

/-- The accumulator of the loop in the `bind` methods; `log` lists the pins whose
`number_of_bundles_connected_to` is incremented (`__update_signal_info` 1145-1156). -/
structure Acc where
  lvl : Level
  clock : Option Nat
  connected : List Name := []
  matching : List Sig := []
  remain : List Sig := []
  log : List Nat := []

/-- One iteration of the loop in the `bind` methods, not in detection mode (220-255, 268-314,
326-374). -/
def connectOne (r : Rule) (a : Acc) (s : Sig) : Acc :=
  match r.strip s.name with
  | none => { a with remain := a.remain ++ [s] }
  | some m =>
    match a.lvl.find m with
    | some p =>
      { a with
        lvl := a.lvl.put p (.pin s.pin)
        clock := if a.clock = none then some s.event else a.clock
        connected := a.connected ++ [m]
        log := a.log ++ [s.pin] }
    | none => { a with matching := a.matching ++ [{ s with name := m }] }

/-- The `bind` method of the naming rule. -/
def connect (r : Rule) (lv : Level) (clock : Option Nat) (sigs : List Sig) : Acc :=
  sigs.foldl (connectOne r) { lvl := lv, clock := clock }

/-- `__detect_missing_signals` (1235-1275), only its effect on the slots. -/
def missing (access : Bool) (connected : List Name) (lv : Level) : Level :=
  if access then
    { signals := lv.signals.map fun c =>
        if c.name ∈ connected then c else { c with slot := .dummy }
      lists := lv.lists.map fun l =>
        (l.1, l.2.map fun e => if e.1 ∈ connected then e else (e.1, .dummy)) }
  else lv

/-- `__revert_signal_name` (1495-1509). -/
def revert (sigs last : List Sig) : List Sig :=
  sigs.map fun s =>
    last.foldl (fun s l => if s.org = l.org then { s with name := l.name } else s) s

/-- What a child leaves in the parent's `__clock_event` (1383-1384: sub-bundles only). -/
def parentClock (l : Label) (child c : Option Nat) : Option Nat :=
  match l, child with
  | .sub _, some e => some e
  | _, _ => c

mutual
/-- `__bind_from_signal_list` (1303-1402) with `detection_mode=False`: the bundle afterwards, the
unmatched signals, and the pins connected, in order. -/
def Bundle.bindList (access : Bool) : Bundle → List Sig → Bundle × List Sig × List Nat
  | .mk r lv c ks, sigs =>
    let a := connect r lv c sigs
    let res := Kids.bindList access ks a.matching a.clock
    (.mk r (missing access a.connected a.lvl) res.2.2.2 res.1,
      revert res.2.1 sigs ++ a.remain, a.log ++ res.2.2.1)
/-- The loops over the children (1372-1399). -/
def Kids.bindList (access : Bool) :
    Kids → List Sig → Option Nat → Kids × List Sig × List Nat × Option Nat
  | .nil, sigs, c => (.nil, sigs, [], c)
  | .cons l b ks, sigs, c =>
    let rb := Bundle.bindList access b sigs
    let rk := Kids.bindList access ks rb.2.1 (parentClock l rb.1.clock c)
    (.cons l rb.1 rk.1, rk.2.1, rb.2.2 ++ rk.2.2.1, rk.2.2.2)
end

/-- A signal of a DUT: its attribute name, its pin and the event of the pin. -/
structure DutSig where
  name : Name
  pin : Nat
  event : Nat
  deriving DecidableEq, Repr

/-- `dut_all_signals` (1529-1547). -/
def dutSignals (dut : List DutSig) : List Sig :=
  dut.map fun d => { name := d.name, org := d.name, pin := d.pin, event := d.event }

/-- The first `bind` of a bundle (681-715), if it returns (`Bundle.bindResult`): the bundle afterwards
and the connected pins. -/
def Bundle.bind (access : Bool) (b : Bundle) (dut : List DutSig) : Bundle × List Nat :=
  let r := b.bindList access (dutSignals dut)
  (r.1, r.2.2)

/-- `step` (666-679): the events that `step(n)` waits for, one after the other; `none` if it raises
`AttributeError` because there is no clock event (`critical` only logs). -/
def Bundle.step (b : Bundle) (n : Nat) : Option (List Nat) :=
  match b.clock with
  | none => if n = 0 then some [] else none
  | some e => some (List.replicate n e)

/-- `from_xport` (1053-1068) with `new_class_from_list` (1023-1039): the names and the pins of the
XPort.  (The pins are set as attributes, without `__update_signal_info`.) -/
def fromXport (xp : List (Name × Nat)) : Bundle :=
  .mk (.pre []) { signals := xp.map fun x => ⟨x.1, false, .pin x.2⟩, lists := [] } none .nil

/-- `number_of_bundles_connected_to` of every pin after a sequence of first binds to one DUT
(`__update_signal_info` 1145-1156). -/
def counters (dut : List DutSig) (bs : List (Bool × Bundle)) : List Nat :=
  bs.flatMap fun ab => (ab.2.bind ab.1 dut).2

/-- `detect_unconnected_signals` (1430-1450), for the increments of the counters so far.  A pin
forwards the attributes it does not have to its `xdata` (as the pins generated by picker do). -/
def detectUnconnected (dut : List DutSig) (inc : List Nat) : List Name :=
  (dut.filter fun d => inc.count d.pin = 0).map DutSig.name

/-- `detect_multiple_connections` (1452-1474). -/
def detectMultiple (dut : List DutSig) (inc : List Nat) : List Name :=
  (dut.filter fun d => 1 < inc.count d.pin).map DutSig.name

/-- One iteration of the loop of a `bind` method in detection mode: no slot is touched; the names
recorded as connected differ between the prefix rule (which records none, 224-235) and the others. -/
def detectOne (r : Rule) (lv : Level) (a : List Name × List Sig × List Sig) (s : Sig) :
    List Name × List Sig × List Sig :=
  match r.strip s.name with
  | none => (a.1, a.2.1, a.2.2 ++ [s])
  | some m =>
    match lv.find m with
    | some _ =>
      (match r with
        | .pre _ => a.1
        | _ => a.1 ++ [m], a.2.1, a.2.2)
    | none => (a.1, a.2.1 ++ [{ s with name := m }], a.2.2)

/-- The `bind` method of the naming rule in detection mode: connected names, matching and remaining
signals. -/
def detectLevel (r : Rule) (lv : Level) (sigs : List Sig) : List Name × List Sig × List Sig :=
  sigs.foldl (detectOne r lv) ([], [], [])

mutual
/-- `__bind_from_signal_list` with `detection_mode=True` and no specific signal. -/
def Bundle.detect : Bundle → List Sig → List Sig
  | .mk r lv _ ks, sigs =>
    let a := detectLevel r lv sigs
    revert (Kids.detect ks a.2.1) sigs ++ a.2.2
def Kids.detect : Kids → List Sig → List Sig
  | .nil, sigs => sigs
  | .cons _ b ks, sigs => Kids.detect ks (Bundle.detect b sigs)
end

/-- `detect_connectivity` (910-928); the signal is `None`. -/
def Bundle.detectConnectivity (b : Bundle) (n : Name) : Bool :=
  (b.detect [{ name := n, org := n, pin := 0, event := 0 }]).isEmpty

/-- `__appended_level_string` (1476-1493). -/
def appended (level s : Name) : Name := if level = [] then s else level ++ '.' :: s

/-- `f"{n}[{i}]"`. -/
def indexed (n : Name) (i : Nat) : Name := n ++ '[' :: (Nat.toDigits 10 i ++ [']'])

/-- The name of a child in paths: `name` or `name[i]`. -/
def Label.text : Label → Name
  | .sub n => n
  | .elem n i => indexed n i

/-- The loop over `remain_signals` for a specific signal (1351-1358).  Removing an element while
iterating makes Python skip the one after it; `skip` says that the next element is skipped. -/
def pickSpecific (level spec : Name) : Bool → List Sig → List Sig
  | _, [] => []
  | true, s :: ss => s :: pickSpecific level spec false ss
  | false, s :: ss =>
    if appended level s.name = spec then pickSpecific level spec true ss
    else s :: pickSpecific level spec false ss

mutual
/-- `__bind_from_signal_list` in detection mode with a specific signal: `remain_signals +=
connected_signals` appends strings, on which `signal["name"]` raises `TypeError` (`none`). -/
def Bundle.detectSpecificList (spec : Name) : Name → Bundle → List Sig → Option (List Sig)
  | level, .mk r lv _ ks, sigs =>
    let a := detectLevel r lv sigs
    if a.1 = [] then
      (Kids.detectSpecificList spec level ks a.2.1).map fun rest =>
        revert rest sigs ++ pickSpecific level spec false a.2.2
    else none
def Kids.detectSpecificList (spec : Name) : Name → Kids → List Sig → Option (List Sig)
  | _, .nil, sigs => some sigs
  | level, .cons l b ks, sigs =>
    (Bundle.detectSpecificList spec (appended level l.text) b sigs).bind fun rest =>
      Kids.detectSpecificList spec level ks rest
end

/-- `detect_specific_connectivity` (944-960); `none` stands for the `TypeError`. -/
def Bundle.detectSpecific (b : Bundle) (n spec : Name) : Option Bool :=
  (b.detectSpecificList spec [] [{ name := n, org := n, pin := 0, event := 0 }]).map List.isEmpty

/-- The signals of a signal list with their paths `name[i]`. -/
def listSlots (level name : Name) : Nat → List (Name × Slot) → List (Name × Slot)
  | _, [] => []
  | i, e :: es => (appended level (indexed name i), e.2) :: listSlots level name (i + 1) es

mutual
/-- `all_signals` (1085-1115); an absent attribute is yielded as `None`. -/
def Bundle.allSignals : Name → Bundle → List (Name × Slot)
  | level, .mk _ lv _ ks =>
    lv.signals.map (fun c => (appended level c.name, c.slot)) ++
      lv.lists.flatMap (fun l => listSlots level l.1 0 l.2) ++ Kids.allSignals level ks
def Kids.allSignals : Name → Kids → List (Name × Slot)
  | _, .nil => []
  | level, .cons l b ks => Bundle.allSignals (appended level l.text) b ++ Kids.allSignals level ks
end

/-- The rule stack: the bundles from the one on which the method was called to the current one, with
their attribute `name` (543-555). -/
abbrev Stack := List (Bundle × Name)

/-- `__get_path_from_rule_stack` (1620-1643) for the part of the stack after its first bundle. -/
def relPath : Stack → Name → Name
  | [], sig => sig
  | x :: st, sig => x.2 ++ '.' :: relPath st sig

/-- The values of `__filter_signals_in_dict` (1603-1618); `none` if `detect_specific_connectivity`
raises `TypeError`. -/
def Bundle.filterDict (b : Bundle) (path : Name) : List (Name × Name) → Option (List Name)
  | [] => some []
  | kv :: d => (b.detectSpecific kv.1 path).bind fun hit =>
      (b.filterDict path d).map fun vs => if hit then kv.2 :: vs else vs

/-- `"|".join(values)`. -/
def joinBar : List Name → Name
  | [] => []
  | [v] => v
  | v :: vs => v ++ '|' :: joinBar vs

/-- `dict_string` (1583-1590). -/
def dictText : List Name → Name
  | [] => "<No Matching Signal in Dict>".toList
  | [v] => v
  | vs => '(' :: (joinBar vs ++ [')'])

/-- `__get_rule_string` (1549-1601) on a stack of bundles and a signal name; `none` if it raises
`TypeError`. -/
def ruleText : Stack → Name → Option Name
  | [], sig => some sig
  | x :: st, sig =>
    match x.1.rule with
    | .pre p => (ruleText st sig).map fun t => p ++ t
    | .regex pat _ => (ruleText st sig).map fun t => pat ++ " -> ".toList ++ t
    | .dict d => (x.1.filterDict (relPath st sig) d).map dictText

/-- The attribute `name` of a child of the last bundle of the stack.  `bind` names the sub-bundles
of the bundle on which it is called (697-699, `named`), and nothing else sets a name (simplification:
`set_name` is not called on a bundle of the tree, and none of them is bound on its own). -/
def kidName (named : Bool) (st : Stack) : Label → Name
  | .sub n => if named && st.length == 1 then n else []
  | .elem _ _ => []

/-- The paths and names `name[i]` of a signal list together with the rule strings. -/
def listRules (level name : Name) (txt : Name → Option Name) :
    Nat → List (Name × Slot) → List (Name × Option Name)
  | _, [] => []
  | i, e :: es => (appended level (indexed name i), txt e.1) :: listRules level name txt (i + 1) es

mutual
/-- `all_signals_rule` (930-942, 1360-1375): pairs of slot path and rule string in the order in which
they are stored; `none` stands for a rule string whose computation raises `TypeError`, so that
`all_signals_rule` raises it.  `named` says whether `bind` has been called before, `st` holds the
enclosing bundles, `nm` is the attribute `name` of the bundle. -/
def Bundle.rules (named : Bool) : Name → Stack → Name → Bundle → List (Name × Option Name)
  | level, st, nm, .mk r lv c ks =>
    let st' := st ++ [(.mk r lv c ks, nm)]
    lv.signals.map (fun c => (appended level c.name, ruleText st' c.name)) ++
      lv.lists.flatMap (fun l => listRules level l.1 (ruleText st') 0 l.2) ++
      Kids.rules named level st' ks
def Kids.rules (named : Bool) : Name → Stack → Kids → List (Name × Option Name)
  | _, _, .nil => []
  | level, st, .cons l b ks =>
    Bundle.rules named (appended level l.text) st (kidName named st l) b ++
      Kids.rules named level st ks
end

/-- `all_signals_rule()` of a bundle called `name`; `none` for the `TypeError`. -/
def Bundle.allSignalsRule (named : Bool) (name : Name) (b : Bundle) : Option (List (Name × Name)) :=
  (b.rules named name [] name).mapM fun x => x.2.map fun t => (x.1, t)

/-- `__remove_signal_attr` (1277-1290) on one slot inside `__unbind_all` (1292-1301): the cell
afterwards and the pin whose counter is decremented; `none` for the `AttributeError` raised by
reading `xdata` of a class-level `Signal()`. -/
def Cell.unbind (c : Cell) : Option (Cell × List Nat) :=
  match c.slot with
  | .absent => some (c, [])
  | .unconnected => none
  | .dummy => some ({ c with slot := c.base }, [])
  | .pin p => some ({ c with slot := c.base }, [p])

/-- The loop over `current_level_signals` in `__unbind_all`. -/
def unbindCells : List Cell → Option (List Cell × List Nat)
  | [] => some ([], [])
  | c :: cs =>
    (c.unbind).bind fun r => (unbindCells cs).map fun rs => (r.1 :: rs.1, r.2 ++ rs.2)

mutual
/-- `__unbind_all` (1292-1301): signal lists, bundle lists and the clock event are left as they
are. -/
def Bundle.unbindAll : Bundle → Option (Bundle × List Nat)
  | .mk r lv c ks =>
    (unbindCells lv.signals).bind fun s =>
      (Kids.unbindAll ks).map fun k => (.mk r { lv with signals := s.1 } c k.1, s.2 ++ k.2)
def Kids.unbindAll : Kids → Option (Kids × List Nat)
  | .nil => some (.nil, [])
  | .cons l b ks =>
    match l with
    | .sub _ =>
      (Bundle.unbindAll b).bind fun rb =>
        (Kids.unbindAll ks).map fun rk => (.cons l rb.1 rk.1, rb.2 ++ rk.2)
    | .elem _ _ => (Kids.unbindAll ks).map fun rk => (.cons l b rk.1, rk.2)
end

/-- A `bind` of an already bound bundle (697-708): `none` when unbinding raises, otherwise the
bundle, the counters decremented and the counters incremented. -/
def Bundle.rebind (access : Bool) (b : Bundle) (dut : List DutSig) :
    Option (Bundle × List Nat × List Nat) :=
  b.unbindAll.map fun u =>
    let r := u.1.bind access dut
    (r.1, u.2, r.2)

/-- `SignalList.__init__` (67-80): `format.replace("#", rule(i))`. -/
def replaceHash (fmt r : Name) : Name := fmt.flatMap fun c => if c = '#' then r else [c]

/-- `SignalList(format, limit, rule)`; `none` for the failed assertions (69-70). -/
def signalList (fmt : Name) (limit : Nat) (rule : Nat → Name) : Option (List (Name × Slot)) :=
  if 0 < limit ∧ '#' ∈ fmt then
    some ((List.range limit).map fun i => (replaceHash fmt (rule i), .unconnected))
  else none

/-- The default rule `str(num)` (76-77). -/
def defaultRule (n : Nat) : Name := Nat.toDigits 10 n

/-- The names of `BundleList(bundle, format, limit, rule)` (119-135), which are the prefixes of its
elements. -/
def bundleListPrefixes (fmt : Name) (limit : Nat) (rule : Nat → Name) : Option (List Name) :=
  if 0 < limit ∧ '#' ∈ fmt then some ((List.range limit).map fun i => replaceHash fmt (rule i))
  else none

end Toffee.Bundle
