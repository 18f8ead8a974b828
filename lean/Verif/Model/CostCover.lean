import Verif.Model.Rows

/-!
# The cost cover event handler

src/cost_cover.cpp 33-84 and its use in `solvePrizeCollectingTSP`, src/algorithms.cpp 163-187.
-/

namespace Pctsp

/-- `CostCoverEventHandler`, cost_cover.hh 68-95, together with the constraints that it has added to the solver. -/
structure CostCover where
  dist : Nat → Int
  numAdded : Nat
  numInit : Nat
  rows : List Row

/-- The constructor, cost_cover.hh 82-92. -/
def CostCover.new (dist : Nat → Int) : CostCover := { dist, numAdded := 0, numInit := 0, rows := [] }

/-- `separateThenAddCostCoverInequalities` as an effect: the constraints are added, their number is returned; cost_cover.cpp 86-100. -/
def CostCover.separate (g : Graph) (hasVar : Nat → Bool) (root : Nat) (ub : Int) (h : CostCover) : Res (CostCover × Nat) := do
  let rows ← separateThenAddCostCover g hasVar root h.dist ub
  pure ({ h with rows := h.rows ++ rows }, rows.length)

/-- The constraints for the initial solution, algorithms.cpp 163-187: `ub` is the cost of the heuristic edges, 0 if there are none. -/
def CostCover.initial (g : Graph) (hasVar : Nat → Bool) (root : Nat) (ub : Int) (h : CostCover) : Res CostCover :=
  if ub > 0 then do
    let (h, k) ← h.separate g hasVar root ub
    pure { h with numInit := k }
  else .ok h

/-- `scip_exec`, cost_cover.cpp 79-84; `ub` is `SCIPgetUpperbound` cast to `int`. -/
def CostCover.exec (g : Graph) (hasVar : Nat → Bool) (root : Nat) (ub : Int) (h : CostCover) : Res CostCover := do
  let (h, k) ← h.separate g hasVar root ub
  pure { h with numAdded := h.numAdded + k }

/-- A run of the solver: one event for each new best solution. -/
def CostCover.run (g : Graph) (hasVar : Nat → Bool) (root : Nat) : List Int → CostCover → Res CostCover
  | [], h => .ok h
  | ub :: ubs, h => do
    let h ← h.exec g hasVar root ub
    CostCover.run g hasVar root ubs h

/-- `getNumConssAdded`, cost_cover.cpp 41-43. -/
def CostCover.count (h : CostCover) : Nat := h.numAdded + h.numInit

/-- The value that a 32-bit two's complement machine stores for an integer. -/
def wrapInt (d : Int) : Int := (d + 2147483648) % 4294967296 - 2147483648

end Pctsp
