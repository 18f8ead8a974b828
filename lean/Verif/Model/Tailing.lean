import Verif.Model.Extension

/-!
# Tailing off

Model of the part of src/subtour_elimination.cpp that decides when to branch: lines 201-233 and 276-295.  Gaps are `double`s; they are
of any type with a subtraction and a comparison.
-/

namespace Pctsp

/-- `sec_max_tailing_off_iterations >= 1`, then `push_back` and at most one `pop_front`: `pushIntoRollingLpGapList`,
subtour_elimination.cpp 276-282.  The comparison of `size_t` with `int` is only reached for a positive `int`. -/
def pushIntoRollingLpGapList {G : Type} (gaps : List G) (gap : G) (m : Int) : List G :=
  if 1 ≤ m then
    let gaps := gaps ++ [gap]
    if m < gaps.length then gaps.drop 1 else gaps
  else gaps

/-- `isNodeTailingOff`, subtour_elimination.cpp 284-295. -/
def isNodeTailingOff {G : Type} (sub : G → G → G) (lt : G → G → Bool) (gaps : List G) (threshold : G) (m : Int) : Bool :=
  if 1 ≤ m ∧ 2 ≤ gaps.length then
    match gaps.head?, gaps.getLast? with
    | some a, some b => lt (sub a b) threshold && decide ((gaps.length : Int) = m)
    | _, _ => false
  else false

/-- The results of `scip_enfolp`; `branch` stands for whatever `SCIPbranchLP` stores in `result`. -/
inductive Enfo where
  | feasible
  | infeasible
  | branch
  deriving DecidableEq, Repr

/-- `scip_enfolp`, subtour_elimination.cpp 201-233.  `windows` is the member `node_rolling_lp_gap`; `simple` is the answer of
`isSolSimpleCycle`, `lpOk` says that the LP status is `UNBOUNDEDRAY` or `OPTIMAL`.  Node numbers are not negative. -/
def enfolp {G : Type} (sub : G → G → G) (lt : G → G → Bool) (threshold : G) (m : Int) (windows : List (List G)) (simple : Bool)
    (node : Nat) (gap : G) (lpOk : Bool) : Enfo × List (List G) :=
  if simple then (.feasible, windows)
  else
    -- lines 211-214
    let windows := if windows.length ≤ node then windows ++ List.replicate (node + 1 - windows.length) [] else windows
    let window := pushIntoRollingLpGapList (windows.getD node []) gap m
    let windows := windows.set node window
    if isNodeTailingOff sub lt window threshold m && lpOk then (.branch, windows) else (.infeasible, windows)

/-- A call of `scip_enfolp`. -/
structure EnfoCall (G : Type) where
  simple : Bool
  node : Nat
  gap : G
  lpOk : Bool

/-- A sequence of calls, from the empty vector that the constructor makes; the results in order, and the vector. -/
def enfoRun {G : Type} (sub : G → G → G) (lt : G → G → Bool) (threshold : G) (m : Int) :
    List (EnfoCall G) → List (List G) → List Enfo × List (List G)
  | [], w => ([], w)
  | c :: cs, w =>
    let (r, w) := enfolp sub lt threshold m w c.simple c.node c.gap c.lpOk
    let (rs, w) := enfoRun sub lt threshold m cs w
    (r :: rs, w)

end Pctsp
