import Verif.Model.Res

/-!
# The knapsack function

src/knapsack.cpp: the program that is given to SCIP, and what is left of it afterwards.
-/

namespace Pctsp

/-- What `knapsack` gives to SCIP: a binary variable for every cost, with the cost as coefficient of the objective
function, which is maximised, and one row, whose entries name a variable and its weight. -/
structure KnapsackProgram where
  objective : List Int
  row : List (Nat × Int)
  capacity : Int
  deriving DecidableEq, Repr

/-- The loop of `SCIPcreateConsBasicKnapsack` over the arrays `variables` and `long_weights`, knapsack.cpp 43-56: the `i`-th
variable of the problem with the `i`-th weight.  Reading behind the last variable is undefined. -/
def knapsackRow (nvars : Nat) : Nat → List Int → Res (List (Nat × Int))
  | _, [] => .ok []
  | i, w :: ws =>
    if i < nvars then do
      let rest ← knapsackRow nvars (i + 1) ws
      pure ((i, w) :: rest)
    else .ub "variables: out of bounds"

/-- The problem of `knapsack`, knapsack.cpp 11-53.  `SCIPgetVars` lists the variables in the order of their creation: all are
binary. -/
def knapsackProgram (costs weights : List Int) (capacity : Int) : Res KnapsackProgram := do
  let row ← knapsackRow costs.length 0 weights
  pure { objective := costs, row := row, capacity := capacity }

/-- What the caller and the memory see after `knapsack`, knapsack.cpp 8-70. -/
structure KnapsackEnd where
  /-- the return code; `true` is `SCIP_OKAY` -/
  okay : Bool
  /-- the variables whose reference of `SCIPcreateVar` is not given back -/
  unreleased : List Nat
  deriving DecidableEq, Repr

/-- `knapsack`, knapsack.cpp 8-70.  `solve` is the return code of `SCIPsolve` (`SCIP_CALL` returns it if it is not
`SCIP_OKAY`); the other calls of SCIP succeed.  The solution is not read.  The last loop releases as many
variables as there are weights. -/
def knapsack (solve : KnapsackProgram → Bool) (costs weights : List Int) (capacity : Int) : Res KnapsackEnd := do
  let p ← knapsackProgram costs weights capacity
  if solve p then pure { okay := true, unreleased := (List.range costs.length).drop weights.length }
  else pure { okay := false, unreleased := List.range costs.length }

/-- The sum that SCIP forms for the row and a choice of variables, in 64 bits: `none` if a partial sum does not fit. -/
def rowSum64 (x : Nat → Bool) : Int → List (Nat × Int) → Option Int
  | s, [] => some s
  | s, (i, w) :: r =>
    let t := if x i then s + w else s
    if -2 ^ 63 ≤ t ∧ t < 2 ^ 63 then rowSum64 x t r else none

end Pctsp
