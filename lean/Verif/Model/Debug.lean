/-!
Model of the interactive commands of `toffee/debug.py`.

A command does nothing but call the DUT and its signals and print, so it is modelled by the list of
these calls in order, or `none` if it raises.

Simplifications: text is a list of characters; white space is that of `Char.isWhitespace`;
`int(text)` is a parameter (`none`: it raises); whether the DUT has an internal signal of a name is a
parameter; calls of the DUT do not raise; the printed text is not modelled, only that an error
or information is printed.  `pdb` itself (which strips the line and splits off the command's name)
is not modelled.
-/

namespace Toffee.Debug

/-- Text. -/
abbrev Text := List Char

/-- The write modes of a signal: `AsVPIWriteNoDelay`, `AsVPIWriteForce`, `AsVPIWriteRelease`. -/
inductive Mode
  | noDelay
  | force
  | release
  deriving DecidableEq

/-- The calls that a command makes. -/
inductive Op
  /-- `info(...)` or `error(...)` -/
  | say
  /-- `dut.Step(n)` -/
  | step (n : Int)
  /-- `dut.FlushWaveform()` -/
  | flush
  /-- `dut.RefreshComb()` -/
  | refresh
  /-- `dut.VPIInternalSignalList(prefix, deep)` and printing its elements -/
  | list (pre : Text) (deep : Int)
  /-- `dut.GetInternalSignal(name)` -/
  | look (name : Text)
  /-- reading `signal.W()` and `signal.value`, and printing them in a base -/
  | show' (name : Text) (base : Nat)
  /-- `signal.value = v` -/
  | write (name : Text) (v : Int)
  /-- `signal.value = signal.value` -/
  | keep (name : Text)
  /-- `signal.AsVPIWrite…()` -/
  | mode (name : Text) (m : Mode)
  /-- `signal.SetIgnoreSameDataWrite(b)` -/
  | ignore (name : Text) (b : Bool)
  deriving DecidableEq

/-- What the commands use of Python and of the DUT. -/
structure Host where
  int : Text → Option Int
  found : Text → Bool

/-- `str.split()`: the words, `w` being the characters of the current one in reverse. -/
def splitGo (w : Text) : Text → List Text
  | [] => if w = [] then [] else [w.reverse]
  | c :: cs =>
    if c.isWhitespace then
      if w = [] then splitGo [] cs else w.reverse :: splitGo [] cs
    else splitGo (c :: w) cs

def split (t : Text) : List Text := splitGo [] t

/-- `str.lower()`. -/
def lower (t : Text) : Text := t.map Char.toLower

/-- `do_tstep` (25-35). -/
def tstep (h : Host) (arg : Text) : Option (List Op) :=
  if arg = [] then some [.step 1, .flush]
  else
    match h.int arg with
    | none => some [.say]
    | some n => some [.step n, .flush]

/-- `do_tflush` (37-41). -/
def tflush (arg : Text) : Option (List Op) :=
  if arg = [] then some [.flush] else some [.say]

/-- `do_tlist` (43-57); `args[0]` raises if there is no word. -/
def tlist (h : Host) (arg : Text) : Option (List Op) :=
  if arg = [] then some [.list [] 99]
  else
    match split arg with
    | [] => none
    | deep :: args =>
      match h.int deep with
      | none => some [.say]
      | some n => some [.list (args.headD []) n]

/-- The names of the bases (67); the numbers are the bases. -/
def baseOf (t : Text) : Option Nat :=
  if t = "bin".toList then some 2
  else if t = "hex".toList then some 16
  else if t = "dec".toList then some 10
  else none

/-- The second half of `do_tprint` (72-81). -/
def tprintBase (h : Host) (name : Text) : Option Nat → Option (List Op)
  | none => some [.say]
  | some b =>
    if h.found name then some [.look name, .show' name b] else some [.look name, .say]

/-- `do_tprint` (59-81). -/
def tprint (h : Host) (arg : Text) : Option (List Op) :=
  if arg = [] then some []
  else
    match split arg with
    | [] => none
    | [name] => tprintBase h name (some 10)
    | name :: stype :: _ => tprintBase h name (baseOf (lower stype))

/-- `do_tset` (83-102). -/
def tset (h : Host) (arg : Text) : Option (List Op) :=
  if arg = [] then some []
  else
    match split arg with
    | [] => none
    | [_] => some [.say]
    | name :: value :: _ =>
      match h.int value with
      | none => some [.say]
      | some v =>
        if h.found name then some [.look name, .write name v, .refresh]
        else some [.look name, .say]

/-- `do_tforce` (104-126). -/
def tforce (h : Host) (arg : Text) : Option (List Op) :=
  if arg = [] then some []
  else
    match split arg with
    | [] => none
    | [_] => some [.say]
    | name :: value :: _ =>
      match h.int value with
      | none => some [.say]
      | some v =>
        if h.found name then
          some [.look name, .ignore name false, .mode name .force, .write name v, .refresh,
            .ignore name true]
        else some [.look name, .say]

/-- `do_trelease` (128-140): the whole argument is the name. -/
def trelease (h : Host) (arg : Text) : Option (List Op) :=
  if arg = [] then some []
  else if h.found arg then
    some [.look arg, .ignore arg false, .mode arg .release, .keep arg, .refresh,
      .mode arg .noDelay, .ignore arg true]
  else some [.look arg, .say]

inductive Cmd
  | tstep | tflush | tlist | tprint | tset | tforce | trelease
  deriving DecidableEq

/-- `onecmd`: the method of the command's name. -/
def run (h : Host) (c : Cmd) (arg : Text) : Option (List Op) :=
  match c with
  | .tstep => tstep h arg
  | .tflush => tflush arg
  | .tlist => tlist h arg
  | .tprint => tprint h arg
  | .tset => tset h arg
  | .tforce => tforce h arg
  | .trelease => trelease h arg

end Toffee.Debug
