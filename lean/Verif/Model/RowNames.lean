import Verif.Model.Res

/-!
# The names of the rows

`joinVariableNames`, include/pctsp/sciputils.hh 11-25, and the names that are made with it.
-/

namespace Pctsp

/-- The loop of `joinVariableNames`, sciputils.hh 15-22.  The exception for a null pointer is constructed but not thrown, so the name of a null pointer is asked for. -/
def joinNamesLoop : List (Option (List Char)) → List Char → Res (List Char)
  | [], acc => .ok acc
  | none :: _, _ => .ub "SCIPvarGetName(NULL)"
  | some name :: vars, acc => joinNamesLoop vars (acc ++ (name ++ ['_']))

/-- `joinVariableNames`, sciputils.hh 11-25: the last separator is erased. -/
def joinVariableNames (vars : List (Option (List Char))) : Res (List Char) := do
  let joined ← joinNamesLoop vars []
  pure (if joined.length > 0 then joined.dropLast else joined)

/-- The three kinds of rows that the library names. -/
inductive RowKind where
  | subtour | cycleCover | costCover
  deriving DecidableEq

/-- The prefixes, subtour_elimination.cpp 102, cycle_cover.hh 46, cost_cover.hh 15. -/
def RowKind.prefix : RowKind → List Char
  | .subtour => "SubtourElimination_".toList
  | .cycleCover => "CycleCover_".toList
  | .costCover => "cost_cover_".toList

/-- The name of a row with the given variables, subtour_elimination.cpp 102, cycle_cover.hh 46, cost_cover.cpp 24. -/
def rowName (kind : RowKind) (vars : List (Option (List Char))) : Res (List Char) := do
  let names ← joinVariableNames vars
  pure (kind.prefix ++ names)

/-- The name that SCIP gives to a variable that is created without a name (algorithms.hh 39): some text around its number. -/
def autoName (before after : List Char) (i : Nat) : List Char := before ++ Nat.toDigits 10 i ++ after

end Pctsp
