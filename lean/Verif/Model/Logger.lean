/-!
# Python: loggers

Model of `get_pctsp_logger`, pctsp/utils/utils.py 8-36, and of how Python's `logging` passes a message to the handlers of a logger.  The names that the package
uses have no dots, so the only other logger is the root logger, which has no handlers and the level `WARNING`.
-/

namespace Pctsp

/-- A logger: its level, and the levels of its handlers, all of which write to the console. -/
structure PyLogger where
  level : Nat
  handlers : List Nat
  deriving DecidableEq, Repr

/-- The loggers of the process by name; `none` before the first `logging.getLogger(name)`. -/
abbrev Loggers := String → Option PyLogger

/-- `get_pctsp_logger(name, level)`, utils.py 8-36: `getLogger` returns the existing logger; the level is set, and another handler is added. -/
def getPctspLogger (st : Loggers) (name : String) (level : Nat) : Loggers := fun n =>
  if n = name then
    match st name with
    | some lg => some { level := level, handlers := lg.handlers ++ [level] }
    | none => some { level := level, handlers := [level] }
  else st n

/-- A sequence of calls. -/
def loggerCalls (st : Loggers) (calls : List (String × Nat)) : Loggers := calls.foldl (fun st c => getPctspLogger st c.1 c.2) st

/-- `logger.getEffectiveLevel()`: the level 0 means that of the root logger, which is 30. -/
def effectiveLevel (lg : PyLogger) : Nat := if lg.level = 0 then 30 else lg.level

/-- How often a message with the given level is written. -/
def timesWritten (st : Loggers) (name : String) (level : Nat) : Nat :=
  match st name with
  | some lg => if effectiveLevel lg ≤ level then (lg.handlers.filter fun h => decide (h ≤ level)).length else 0
  | none => 0

/-- The calls when the package is imported: the default arguments in run_algorithm.py 63, 155 and 285 and in lab.py 48.  The level `INFO` is 20. -/
def importCalls : List (String × Nat) := [("run_heuristic", 20), ("run_algorithm", 20), ("run_algorithm", 20), ("Lab", 20)]

end Pctsp
