import Verif.Model.Bundle

/-!
Model of the data operations of a bundle: `as_dict`, `assign`, `set_all`, `randomize_all`
(`toffee/bundle.py` 717-908, 1085-1115).

None of the assigning operations reads a pin, so they are modelled by what they do to the outside
world in order: the writes to pins, the reported keys, the argument afterwards and the exception
raised, if any.  Applying the writes to the pins is `Dev.run`.

Simplifications:
* pin values are integers; what a pin makes of a written integer (truncation to its width) is a
  parameter (`Dev.wr`), the write mode is immediate, and writing anything but an integer to a pin
  raises;
* messages are dictionaries with text keys, lists, integers and `None`, without sharing; objects
  with `__bundle_assign__` are not modelled;
* `error` and `critical` only log (`toffee/logger.py`), which is `Out.reports`.
-/

namespace Toffee.Bundle

mutual
/-- A Python value: `None`, an integer, a list, a dictionary. -/
inductive Val
  | none
  | num (v : Int)
  | seq (vs : Vals)
  | dict (d : Items)
inductive Vals
  | nil
  | cons (v : Val) (rest : Vals)
/-- A dictionary in insertion order. -/
inductive Items
  | nil
  | cons (k : Name) (v : Val) (rest : Items)
end

namespace Items
def ofList : List (Name × Val) → Items
  | [] => .nil
  | (k, v) :: l => .cons k v (ofList l)
def toList : Items → List (Name × Val)
  | .nil => []
  | .cons k v rest => (k, v) :: toList rest
end Items

namespace Vals
def ofList : List Val → Vals
  | [] => .nil
  | v :: l => .cons v (ofList l)
def toList : Vals → List Val
  | .nil => []
  | .cons v rest => v :: toList rest
end Vals

/-- The key `"*"`. -/
def star : Name := ['*']

/-- What the simulated device provides: the value a pin that holds `old` has after a write
(`wr pin old written`), whether the pin is an
output (`IsOutIO`), and its width (`W`). -/
structure Dev where
  wr : Nat → Int → Int → Int
  out : Nat → Bool
  width : Nat → Nat

inductive Err
  /-- access to an unconnected or absent signal -/
  | attribute
  /-- length of a value for a signal list -/
  | assertion
  /-- a value of the wrong type -/
  | type
  /-- a list too short for a bundle list -/
  | index
  deriving DecidableEq

/-- What a call does: the writes in order, the keys reported as not found, the argument afterwards,
and the exception raised. -/
structure Out (α : Type) where
  writes : List (Nat × Int)
  reports : List Name
  item : α
  err : Option Err

/-- Run `next` unless an exception was raised. -/
def Out.next {α β : Type} (o : Out α) (stop : α → β) (go : α → Out β) : Out β :=
  match o.err with
  | some e => { writes := o.writes, reports := o.reports, item := stop o.item, err := some e }
  | none =>
    let n := go o.item
    { writes := o.writes ++ n.writes, reports := o.reports ++ n.reports, item := n.item, err := n.err }

def Out.ok {α : Type} (a : α) : Out α := { writes := [], reports := [], item := a, err := none }
def Out.fail {α : Type} (a : α) (e : Err) : Out α :=
  { writes := [], reports := [], item := a, err := some e }

/-- The pins after a sequence of writes. -/
def Dev.run (dev : Dev) (pins : Nat → Int) (ws : List (Nat × Int)) : Nat → Int :=
  ws.foldl (fun pins w => fun q => if q = w.1 then dev.wr q (pins q) w.2 else pins q) pins

/-- `signal.value`: a dummy reads `None` (`DummySignal.__getattribute__` 33-34), an unconnected or
absent one raises `AttributeError` (`UnconnectedSignal.__getattribute__` 48-49). -/
def readSlot (pins : Nat → Int) : Slot → Option Val
  | .absent => none
  | .unconnected => none
  | .dummy => some .none
  | .pin p => some (.num (pins p))

/-- `signal.value = v`: a dummy ignores it (30-31), an unconnected or absent one raises (51-52). -/
def writeSlot (s : Slot) (v : Val) : Out Val :=
  match s with
  | .absent => .fail v .attribute
  | .unconnected => .fail v .attribute
  | .dummy => .ok v
  | .pin p =>
    match v with
    | .num x => { writes := [(p, x)], reports := [], item := v, err := none }
    | _ => .fail v .type

/-- `__is_instance_of_xpin(signal) and not signal.IsOutIO()`. -/
def writable (dev : Dev) : Slot → Bool
  | .pin p => !dev.out p
  | _ => false

/-- The loop of `set_all` over the signals of `all_signals` (785-788). -/
def setSlots (dev : Dev) (v : Val) : List Slot → Out Val
  | [] => .ok v
  | s :: ss =>
    if writable dev s then (writeSlot s v).next id (fun v => setSlots dev v ss)
    else setSlots dev v ss

/-- `set_all` (774-788). -/
def Bundle.setAll (dev : Dev) (b : Bundle) (v : Val) : Out Val :=
  setSlots dev v ((b.allSignals []).map Prod.snd)

/-- The loop of `SignalList.assign` (100-101). -/
def writeAll : List Slot → List Val → Out Unit
  | s :: ss, v :: vs => (writeSlot s v).next (fun _ => ()) fun _ => writeAll ss vs
  | _, _ => .ok ()

/-- `SignalList.assign` (96-101). -/
def assignList (slots : List Slot) (v : Val) : Out Val :=
  match v with
  | .seq vs =>
    if vs.toList.length = slots.length then
      (writeAll slots vs.toList).next (fun _ => v) fun _ => .ok v
    else .fail v .assertion
  | _ => .fail v .type

/-- What a key of the dictionary names: a signal, a signal list, a sub-bundle, all of a sub-bundle
(`"sub.*"`, flat dictionaries only), a bundle list, or nothing. -/
inductive Target
  | slot (s : Slot)
  | list (slots : List Slot)
  | sub (b : Bundle)
  | all (b : Bundle)
  | elems (bs : List Bundle)
  | missing

/-- The elements of the bundle list `n`. -/
def Kids.elems : Kids → Name → List Bundle
  | .nil, _ => []
  | .cons (.sub _) _ ks, n => Kids.elems ks n
  | .cons (.elem m _) b ks, n => if m = n then b :: Kids.elems ks n else Kids.elems ks n

/-- The sub-bundle `n`. -/
def Kids.sub? : Kids → Name → Option Bundle
  | .nil, _ => none
  | .cons (.sub m) b ks, n => if m = n then some b else Kids.sub? ks n
  | .cons (.elem _ _) _ ks, n => Kids.sub? ks n

/-- A bundle list or nothing (866-876, 897-908). -/
def Kids.elemTarget (ks : Kids) (k : Name) : Target :=
  match ks.elems k with
  | [] => .missing
  | bs => .elems bs

/-- `signal.split(".", 1)` (882-884). -/
def splitDot : Name → Option (Name × Name)
  | [] => none
  | c :: cs => if c = '.' then some ([], cs) else (splitDot cs).map fun p => (c :: p.1, p.2)

/-- The `if`/`elif` chain of a multilevel `assign` (845-876). -/
def Bundle.locate (b : Bundle) (k : Name) : Target :=
  match b.lvl.signals.find? (fun c => c.name = k) with
  | some c => .slot c.slot
  | none =>
    match b.lvl.lists.find? (fun l => l.1 = k) with
    | some l => .list (l.2.map Prod.snd)
    | none =>
      match b.kids.sub? k with
      | some s => .sub s
      | none => b.kids.elemTarget k

mutual
/-- The chain of a flat `assign` (877-908); the recursive call for `sub.key` is made with the
one-element dictionary `{key: value}`, so it amounts to resolving `key` in the sub-bundle. -/
def Bundle.locateFlat : Bundle → Name → Target
  | .mk _ lv _ ks, k =>
    match lv.signals.find? (fun c => c.name = k) with
    | some c => .slot c.slot
    | none =>
      match lv.lists.find? (fun l => l.1 = k) with
      | some l => .list (l.2.map Prod.snd)
      | none =>
        match splitDot k with
        | none => ks.elemTarget k
        | some (h, t) =>
          match Kids.locateFlat ks h t with
          | some x => x
          | none => ks.elemTarget k
def Kids.locateFlat : Kids → Name → Name → Option Target
  | .nil, _, _ => none
  | .cons (.sub n) b ks, h, t =>
    if n = h then some (if t = star then .all b else Bundle.locateFlat b t)
    else Kids.locateFlat ks h t
  | .cons (.elem _ _) _ ks, h, t => Kids.locateFlat ks h t
end

/-- `item["*"]`. -/
def Items.star? : Items → Option Val
  | .nil => none
  | .cons k v rest => if k = star then some v else rest.star?

mutual
/-- `assign` (820-908).  `level` is the `level_string` of the reports. -/
def assign (dev : Dev) (flat : Bool) (level : Name) (b : Bundle) : Val → Out Val
  | .dict d =>
    match d.star? with
    | none =>
      let o := assignItems dev flat level b d
      { writes := o.writes, reports := o.reports, item := .dict o.item, err := o.err }
    | some v =>
      (b.setAll dev v).next (fun _ => .dict d) fun _ =>
        let o := assignItems dev flat level b d
        { writes := o.writes, reports := o.reports, item := .dict o.item, err := o.err }
  | v => { writes := [], reports := [level], item := v, err := none }
/-- The loop over `item.items()`, after `del item["*"]` (841-908). -/
def assignItems (dev : Dev) (flat : Bool) (level : Name) (b : Bundle) : Items → Out Items
  | .nil => .ok .nil
  | .cons k v rest =>
    if k = star then assignItems dev flat level b rest
    else
      let o : Out Val :=
        match (if flat then b.locateFlat k else b.locate k) with
        | .slot s => writeSlot s v
        | .list slots => assignList slots v
        | .sub c => assign dev flat (appended level k) c v
        | .all c => c.setAll dev v
        | .elems bs => assignElems dev flat bs v
        | .missing => { writes := [], reports := [appended level k], item := v, err := none }
      o.next (fun v' => .cons k v' rest) fun v' =>
        let r := assignItems dev flat level b rest
        { writes := r.writes, reports := r.reports, item := .cons k v' r.item, err := r.err }
/-- `BundleList.assign` (136-138). -/
def assignElems (dev : Dev) (flat : Bool) (bs : List Bundle) : Val → Out Val
  | .seq vs =>
    let o := assignVals dev flat bs vs
    { writes := o.writes, reports := o.reports, item := .seq o.item, err := o.err }
  | v => .fail v .type
/-- Its loop. -/
def assignVals (dev : Dev) (flat : Bool) : List Bundle → Vals → Out Vals
  | [], vs => .ok vs
  | _ :: _, .nil => .fail .nil .index
  | b :: bs, .cons v rest =>
    (assign dev flat [] b v).next (fun v' => .cons v' rest) fun v' =>
      let r := assignVals dev flat bs rest
      { writes := r.writes, reports := r.reports, item := .cons v' r.item, err := r.err }
end

/-- All results, or `none` if one is missing (the comprehension raised). -/
def collect {α β : Type} (f : α → Option β) : List α → Option (List β)
  | [] => some []
  | a :: as => (f a).bind fun b => (collect f as).map fun bs => b :: bs

/-- The part of `as_dict` for the current level (732-739, 751-758). -/
def Level.dict (pins : Nat → Int) (lv : Level) : Option (List (Name × Val)) :=
  (collect (fun c => (readSlot pins c.slot).map fun v => (c.name, v)) lv.signals).bind fun s =>
    (collect (fun l => (collect (fun e => readSlot pins e.2) l.2).map fun vs =>
      (l.1, Val.seq (Vals.ofList vs))) lv.lists).map fun l => s ++ l

/-- The entries for the sub-bundles, then one entry for every bundle list (740-748). -/
def kidItems (ds : List (Label × Items)) : List (Name × Val) :=
  (ds.filterMap fun d =>
    match d.1 with
    | .sub n => some (n, .dict d.2)
    | .elem _ _ => none) ++
  ((ds.filterMap fun d =>
    match d.1 with
    | .sub _ => none
    | .elem n _ => some n).eraseDups.map fun n =>
      (n, .seq (Vals.ofList (ds.filterMap fun d =>
        match d.1 with
        | .sub _ => none
        | .elem m _ => if m = n then some (.dict d.2) else none))))

mutual
/-- `as_dict()` (731-749); `none` when the access to an unconnected signal raises. -/
def Bundle.asDict (pins : Nat → Int) : Bundle → Option Items
  | .mk _ lv _ ks =>
    (lv.dict pins).bind fun own => (Kids.asDict pins ks).map fun ds =>
      Items.ofList (own ++ kidItems ds)
def Kids.asDict (pins : Nat → Int) : Kids → Option (List (Label × Items))
  | .nil => some []
  | .cons l b ks =>
    (Bundle.asDict pins b).bind fun d => (Kids.asDict pins ks).map fun ds => (l, d) :: ds
end

mutual
/-- `as_dict(multilevel=False)` (750-769). -/
def Bundle.asFlat (pins : Nat → Int) : Bundle → Option (List (Name × Val))
  | .mk _ lv _ ks =>
    (lv.dict pins).bind fun own => (Kids.asFlat pins ks).map fun ds => own ++ ds
def Kids.asFlat (pins : Nat → Int) : Kids → Option (List (Name × Val))
  | .nil => some []
  | .cons l b ks =>
    (Bundle.asFlat pins b).bind fun d => (Kids.asFlat pins ks).map fun ds =>
      d.map (fun e => (l.text ++ '.' :: e.1, e.2)) ++ ds
end

/-- The range of the random values of a signal (812-818). -/
def randRange (dev : Dev) (range : Option (Int × Int)) (p : Nat) : Int × Int :=
  match range with
  | some r => r
  | none =>
    let w := if dev.width p = 0 then 1 else dev.width p
    (0, 2 ^ w - 1)

/-- The loop of `randomize_all` (804-818); `rnd i lo hi` is the result of the `i`-th call of
`random_func(lo, hi)`. -/
def randSlots (dev : Dev) (range : Option (Int × Int)) (exclude : List Name)
    (rnd : Nat → Int → Int → Int) : Nat → List (Name × Slot) → List (Nat × Int)
  | _, [] => []
  | i, (n, s) :: rest =>
    match s with
    | .pin p =>
      if n ∉ exclude ∧ dev.out p = false then
        (p, rnd i (randRange dev range p).1 (randRange dev range p).2) ::
          randSlots dev range exclude rnd (i + 1) rest
      else randSlots dev range exclude rnd i rest
    | _ => randSlots dev range exclude rnd i rest

/-- `randomize_all` (790-818). -/
def Bundle.randomizeAll (dev : Dev) (b : Bundle) (range : Option (Int × Int)) (exclude : List Name)
    (rnd : Nat → Int → Int → Int) : List (Nat × Int) :=
  randSlots dev range exclude rnd 0 (b.allSignals [])

end Toffee.Bundle
