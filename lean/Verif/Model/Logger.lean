import Verif.Model.Dict

/-!
Model of `toffee/logger.py` (22-176) on top of the parts of Python's `logging` it uses:
`Logger.isEnabledFor` (level test), `Logger.callHandlers` (handlers in order, each with its own level
test), `addHandler`/`removeHandler`, and `Logger.getEffectiveLevel` (a logger with level 0 takes the level
of its parent).  Simplification: the root logger, which is the parent, has no handlers, so that
`basicConfig` sets its level (128), and nothing else does.  Not modelled: propagation to the root logger,
`logging.disable`, the text around the id (colours, file name, line number).
-/

namespace Toffee.Logger

/-- A log record: level number, the `log_id` attribute (absent or a text), the message.
The level name is a function of the level number (`logging.getLevelName`). -/
structure Record where
  levelno : Nat
  logId : Option String
  msg : String
deriving DecidableEq, Repr

/-- The handlers `setup_logging` installs (`logger.py` 94-98, 135-146). -/
inductive Handler where
  | stats
  | screen
  | file (name : String) (level : Nat)
deriving DecidableEq, Repr

/-- What an output shows of a record: level, the expansion of `%(log_id)s`, the message. -/
structure Line where
  levelno : Nat
  idText : String
  msg : String
deriving DecidableEq, Repr

/-- The state of the module: the levels of the logger and of the root logger, the handlers, the counters of the statistics handler, the
level of the (global) screen handler, and the outputs. -/
structure State where
  level : Nat
  root : Nat
  handlers : List Handler
  severity : Dict String Nat
  ids : Dict String Nat
  screenLevel : Nat
  screen : List Line
  files : Dict String (List Line)

/-- `d[k] += 1` with default 0 (`logger.py` 33-35, 40-42). -/
def bump (d : Dict String Nat) (k : String) : Dict String Nat :=
  Dict.set d k ((Dict.get? d k).getD 0 + 1)

/-- The key under which `StatsHandler.emit` counts an id (`logger.py` 37-39). -/
def idKey : Option String → String
  | none => "default_id"
  | some x => if x = "" then "default" else x

/-- `ToffeeFormatter.format` (`logger.py` 62-78): the displayed line, and the record, whose `log_id`
attribute it overwrites (lines 63-66). -/
def format (r : Record) : Line × Record :=
  let text := match r.logId with
    | none => ""
    | some x => if x = "" then "" else "(id: " ++ x ++ ")"
  (⟨r.levelno, text, r.msg⟩, { r with logId := some text })

/-- One handler receiving the record (`logging.Logger.callHandlers`: level test, then `handle`). -/
def handle (levelName : Nat → String) (s : State) (r : Record) : Handler → State × Record
  | .stats =>
    ({ s with severity := bump s.severity (levelName r.levelno), ids := bump s.ids (idKey r.logId) }, r)
  | .screen =>
    if r.levelno ≥ s.screenLevel then
      let (l, r') := format r
      ({ s with screen := s.screen ++ [l] }, r')
    else (s, r)
  | .file name lvl =>
    if r.levelno ≥ lvl then
      let (l, r') := format r
      ({ s with files := Dict.set s.files name ((Dict.get? s.files name).getD [] ++ [l]) }, r')
    else (s, r)

/-- `getEffectiveLevel`. -/
def State.effective (s : State) : Nat := if s.level = 0 then s.root else s.level

/-- `toffee_logger.log(levelno, msg, extra={"log_id": …})` (`logger.py` 155-161). -/
def emit (levelName : Nat → String) (s : State) (r : Record) : State :=
  if r.levelno ≥ s.effective then
    (s.handlers.foldl (fun sr h => handle levelName sr.1 sr.2 h) (s, r)).1
  else s

/-- `setup_logging` (`logger.py` 115-146).  A file handler truncates its file (`mode="w"`).
`log_file=""` is the same as no file (139): it is `none` here. -/
def setup (s : State) (level : Nat) (console : Bool) (file : Option String) : State :=
  let s := { s with level := level, root := level, handlers := [.stats] }
  let s := if console then { s with screenLevel := level, handlers := s.handlers ++ [.screen] } else s
  match file with
  | none => s
  | some f => { s with files := Dict.set s.files f [], handlers := s.handlers ++ [.file f level] }

/-- Importing the module: empty statistics, then `setup_logging()` with level WARNING = 30
(`logger.py` 85, 96-98, 149). -/
def init : State := setup ⟨30, 30, [], [], [], 0, [], []⟩ 30 true none

/-- The text of `summary` (`logger.py` 164-175). -/
def summaryText (severity : Dict String Nat) : String :=
  "Log Summary\n============\n* Report counts by severity\n" ++
    String.join (severity.map fun e => e.1 ++ ":\t" ++ toString e.2 ++ "\n")

/-- `summary()` (`logger.py` 164-176): an INFO record, INFO = 20. -/
def summary (levelName : Nat → String) (s : State) : State :=
  emit levelName s ⟨20, none, summaryText s.severity⟩

/-- Public operations; `setLevel` is `get_logger().setLevel(n)`.  (`summary()` is a `log`.) -/
inductive Op where
  | setup (level : Nat) (console : Bool) (file : Option String)
  | log (r : Record)
  | setLevel (n : Nat)

def step (levelName : Nat → String) (s : State) : Op → State
  | .setup l c f => setup s l c f
  | .log r => emit levelName s r
  | .setLevel n => { s with level := n }

def run (levelName : Nat → String) (s : State) (ops : List Op) : State :=
  ops.foldl (step levelName) s

end Toffee.Logger
