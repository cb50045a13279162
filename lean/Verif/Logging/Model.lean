import Verif.Py

/-!
# Log messages and the command line

`init_logging`, `fit_string` (utils/logging.py), `add_logger` (beluga.py:18-37), and `main` (__main__.py).

Of Python's `logging` module: a message of level `n` sent to a logger reaches its handlers if `n` is at least the effective level of the
logger, which is its own level, or, if that is `NOTSET` (0), the level of the nearest ancestor that has one; a handler
drops messages below its own level.  Whether ancestors receive the message too depends on `propagate`.
-/

namespace Beluga.Log

def NOTSET : Nat := 0
def DEBUG : Nat := 10
def INFO : Nat := 20
def WARNING : Nat := 30
def ERROR : Nat := 40
def CRITICAL : Nat := 50

/-- Where a handler writes (utils/logging.py:11-52). -/
inductive Target where
  | stdout
  | file (name : String)
  deriving DecidableEq

structure Handler where
  target : Target
  level : Nat
  deriving DecidableEq

structure Logger where
  level : Nat := 0
  propagate : Bool := true
  handlers : List Handler := []
  displayLevel : Option Nat := none
  deriving DecidableEq

/-- The loggers that matter: Python's root logger and the logger `beluga` (utils/logging.py:11-52, beluga.py:18-37). -/
structure Loggers where
  root : Logger := { level := WARNING }
  beluga : Logger := {}
  deriving DecidableEq

/-- `init_logging(display_level, file_level, filename)` (utils/logging.py:11-36). -/
def initLogging (display file : Nat) (filename : String) (s : Loggers) : Loggers :=
  { s with beluga :=
    { level := min display file
      propagate := false
      displayLevel := some display
      handlers := ⟨.stdout, display⟩ :: (if file > NOTSET then [⟨.file filename, file⟩] else []) } }

/-- `import beluga` (utils/logging.py:52). -/
def importBeluga (s : Loggers) : Loggers := initLogging INFO NOTSET "beluga.log" s

/-- `add_logger` (beluga.py:18-37). -/
def addLogger (display : Nat := INFO) (file : Nat := DEBUG) (filename : String := "beluga.log") (s : Loggers) : Loggers :=
  initLogging display file filename s

/-- `Logger.getEffectiveLevel` (utils/logging.py:11-52). -/
def effective (s : Loggers) : Nat := if s.beluga.level ≠ 0 then s.beluga.level else s.root.level

/-- The places where a message sent to the logger `beluga` appears (utils/logging.py:11-52). -/
def emit (s : Loggers) (level : Nat) : List Target :=
  if effective s ≤ level then
    ((s.beluga.handlers ++ if s.beluga.propagate then s.root.handlers else []).filter fun h => h.level ≤ level).map Handler.target
  else []

/-- Whether the progress bar is shown (continuation.py:558-566). -/
def progressBar (s : Loggers) : Bool :=
  let l := s.beluga.displayLevel.getD (effective s)
  INFO ≤ l ∧ l < WARNING

/-- `fit_string(s, width, justification)` (utils/logging.py:39-49).  `s[:width - 3]` counts from the end if `width < 3`.  `str.center`
puts the odd space on the left if the width is odd. -/
def fitString (s : List Char) (width : Nat) (justification : String) : Py (List Char) :=
  if s.length > width then
    .ok ((if width < 3 then s.take (s.length - (3 - width)) else s.take (width - 3)) ++ ['.', '.', '.'])
  else
    let pad := width - s.length
    if justification = "left" then .ok (s ++ List.replicate pad ' ')
    else if justification = "center" then
      let left := pad / 2 + (if pad % 2 = 1 ∧ width % 2 = 1 then 1 else 0)
      .ok (List.replicate left ' ' ++ s ++ List.replicate (pad - left) ' ')
    else if justification = "right" then .ok (List.replicate pad ' ' ++ s)
    else .error .valueError

/-! ### The command line -/

/-- What docopt returns (__main__.py:4-57); `output` is the list of values of `--output`. -/
structure Options where
  nolog : Bool := false
  log : String := "ERROR"
  quiet : Bool := false
  display : String := "INFO"
  output : List String := []
  scenario : String
  deriving DecidableEq

/-- `levels` (__main__.py:112-125), applied to `s.upper()`. -/
def levelOf (s : String) : Option Nat :=
  match s.toUpper with
  | "ALL" => some DEBUG
  | "DEBUG" => some DEBUG
  | "0" => some DEBUG
  | "INFO" => some INFO
  | "1" => some INFO
  | "WARNING" => some WARNING
  | "WARN" => some WARNING
  | "2" => some WARNING
  | "ERROR" => some ERROR
  | "3" => some ERROR
  | "CRITICAL" => some CRITICAL
  | "4" => some CRITICAL
  | "OFF" => some (CRITICAL + 1)
  | _ => none

/-- How a run of `main` ends (__main__.py:64-162). -/
inductive Outcome where
  | message (s : String)
  | loaded (scenario : String)
  | solved (scenario : String)
  deriving DecidableEq

/-- `main` (__main__.py:109-163).  `writable` tells whether the directory of a file can be written to; `attributes` are the names
defined in the package `beluga`, of which `setup_beluga` is needed (line 158).  Nothing happens after `load_scenario`, which itself
returns `None` for all but YAML files (lines 64-106, 160-162). -/
def main (attributes : List String) (writable : String → Bool) (o : Options) : Py Outcome :=
  let log := if o.nolog then "off" else o.log
  let display := if o.quiet then "off" else o.display
  match levelOf log with
  | none => .ok (.message "Invalid value specified for logging level")
  | some _ =>
    match levelOf display with
    | none => .ok (.message "Invalid value specified for display level")
    | some _ =>
      match o.output with
      | f :: _ =>
        if ¬ writable f then .ok (.message "Unable to access output file location or invalid filename")
        else if "setup_beluga" ∈ attributes then .ok (.loaded o.scenario) else .error .attributeError
      | [] => if "setup_beluga" ∈ attributes then .ok (.loaded o.scenario) else .error .attributeError

/-- The names of the package (beluga/__init__.py) and its modules. -/
def packageNames : List String :=
  ["root", "init_logging", "logger", "solve", "add_logger", "bvp_solvers", "guess_generator", "GuessGenerator", "init_continuation",
   "LocalCompiler", "Problem", "bvp_algorithm", "numpy", "__version__", "__splash__", "DTYPE", "beluga", "continuation", "numeric",
   "release", "symbolic", "utils", "__main__"]

end Beluga.Log
