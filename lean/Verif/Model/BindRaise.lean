import Verif.Model.BundleWarn

/-! `bind` of a bundle (`toffee/bundle.py` 681-715) that raises: what it has done until then.

Not modelled: exceptions of `make_requset_response_for` and of setting the write mode, which `bind` calls after the
bundle is bound. -/

namespace Toffee.Bundle

/-- The loop of `__detect_missing_signals` over the signals of the level (1248-1258), up to the first rule string
that raises; the second component is false if one does. -/
def missCells (access : Bool) (connected : List Name) (txt : Name → Option Name) : List Cell → List Cell × Bool
  | [] => ([], true)
  | c :: cs =>
    if c.name ∈ connected then
      (c :: (missCells access connected txt cs).1, (missCells access connected txt cs).2)
    else
      match txt c.name with
      | none => (c :: cs, false)
      | some _ =>
        ((if access then { c with slot := .dummy } else c) :: (missCells access connected txt cs).1,
          (missCells access connected txt cs).2)

/-- The inner loop over one signal list (1261-1275). -/
def missElems (access : Bool) (connected : List Name) (txt : Name → Option Name) :
    List (Name × Slot) → List (Name × Slot) × Bool
  | [] => ([], true)
  | e :: es =>
    if e.1 ∈ connected then
      (e :: (missElems access connected txt es).1, (missElems access connected txt es).2)
    else
      match txt e.1 with
      | none => (e :: es, false)
      | some _ =>
        ((if access then (e.1, .dummy) else e) :: (missElems access connected txt es).1,
          (missElems access connected txt es).2)

/-- The loop over the signal lists (1260). -/
def missLists (access : Bool) (connected : List Name) (txt : Name → Option Name) :
    List (Name × List (Name × Slot)) → List (Name × List (Name × Slot)) × Bool
  | [] => ([], true)
  | l :: ls =>
    if (missElems access connected txt l.2).2 then
      ((l.1, (missElems access connected txt l.2).1) :: (missLists access connected txt ls).1,
        (missLists access connected txt ls).2)
    else ((l.1, (missElems access connected txt l.2).1) :: ls, false)

/-- `__detect_missing_signals` (1235-1275). -/
def missTo (access : Bool) (connected : List Name) (txt : Name → Option Name) (lv : Level) : Level × Bool :=
  if (missCells access connected txt lv.signals).2 then
    (⟨(missCells access connected txt lv.signals).1, (missLists access connected txt lv.lists).1⟩,
      (missLists access connected txt lv.lists).2)
  else (⟨(missCells access connected txt lv.signals).1, lv.lists⟩, false)

mutual
/-- `__bind_from_signal_list` (1303-1402) with `detection_mode=False`: the bundle, the unmatched signals, the pins
connected, and whether it returned. -/
def Bundle.bindTo (access : Bool) : Stack → Name → Bundle → List Sig → Bundle × List Sig × List Nat × Bool
  | st, nm, .mk r lv c ks, sigs =>
    let a := connect r lv c sigs
    let st' := st ++ [(.mk r lv c ks, nm)]
    let m := missTo access a.connected (ruleText st') a.lvl
    if m.2 then
      let res := Kids.bindTo access st' ks a.matching a.clock
      (.mk r m.1 res.2.2.2.1 res.1, revert res.2.1 sigs ++ a.remain, a.log ++ res.2.2.1, res.2.2.2.2)
    else (.mk r m.1 a.clock ks, [], a.log, false)
/-- The loops over the children (1372-1399). -/
def Kids.bindTo (access : Bool) :
    Stack → Kids → List Sig → Option Nat → Kids × List Sig × List Nat × Option Nat × Bool
  | _, .nil, sigs, c => (.nil, sigs, [], c, true)
  | st, .cons l b ks, sigs, c =>
    let rb := Bundle.bindTo access st (kidName true st l) b sigs
    if rb.2.2.2 then
      let rk := Kids.bindTo access st ks rb.2.1 (parentClock l rb.1.clock c)
      (.cons l rb.1 rk.1, rk.2.1, rb.2.2.1 ++ rk.2.2.1, rk.2.2.2.1, rk.2.2.2.2)
    else (.cons l rb.1 ks, [], rb.2.2.1, c, false)
end

/-- The loop over `current_level_signals` in `__unbind_all` (1297-1299), up to the signal that raises. -/
def unbindCellsTo : List Cell → List Cell × List Nat × Bool
  | [] => ([], [], true)
  | c :: cs =>
    match c.unbind with
    | none => (c :: cs, [], false)
    | some r => (r.1 :: (unbindCellsTo cs).1, r.2 ++ (unbindCellsTo cs).2.1, (unbindCellsTo cs).2.2)

mutual
/-- `__unbind_all` (1292-1301): the bundle, the pins whose counter is decremented, and whether it returned. -/
def Bundle.unbindTo : Bundle → Bundle × List Nat × Bool
  | .mk r lv c ks =>
    let s := unbindCellsTo lv.signals
    if s.2.2 then
      let k := Kids.unbindTo ks
      (.mk r { lv with signals := s.1 } c k.1, s.2.1 ++ k.2.1, k.2.2)
    else (.mk r { lv with signals := s.1 } c ks, s.2.1, false)
def Kids.unbindTo : Kids → Kids × List Nat × Bool
  | .nil => (.nil, [], true)
  | .cons (.sub n) b ks =>
    let rb := Bundle.unbindTo b
    if rb.2.2 then
      let rk := Kids.unbindTo ks
      (.cons (.sub n) rb.1 rk.1, rb.2.1 ++ rk.2.1, rk.2.2)
    else (.cons (.sub n) rb.1 ks, rb.2.1, false)
  | .cons (.elem n i) b ks =>
    let rk := Kids.unbindTo ks
    (.cons (.elem n i) b rk.1, rk.2.1, rk.2.2)
end

/-- A bundle that may have been bound (`self.bound`), and `number_of_bundles_connected_to` of every pin, 0 if it
has none (1145-1156, 1284-1289). -/
structure Inst where
  bundle : Bundle
  bound : Bool
  count : Nat → Nat

/-- `bind` (681-715): the bundle afterwards, and whether the call returned. -/
def Inst.bind (access : Bool) (name : Name) (dut : List DutSig) (x : Inst) : Inst × Bool :=
  let u := if x.bound then x.bundle.unbindTo else (x.bundle, [], true)
  if u.2.2 then
    let r := u.1.bindTo access [] name (dutSignals dut)
    (⟨r.1, x.bound || r.2.2.2, fun p => x.count p - u.2.1.count p + r.2.2.1.count p⟩, r.2.2.2)
  else (⟨u.1, x.bound, fun p => x.count p - u.2.1.count p⟩, false)

end Toffee.Bundle
