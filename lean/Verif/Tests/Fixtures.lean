import Verif.Model.Gain
import Verif.Spec.Ieee

/-!
# The fixtures of the repository's own tests

The modules under `Verif/Tests` replay on the model what the repository's tests expect of the code. They are tests of the
faithfulness of the model, not proofs of properties: each is an evaluation on one input.

tests/fixtures.cpp 4-265. A fixture is named by the number in its name: 4 for COMPLETE4, 5 for COMPLETE5, 8 for GRID8; 9 is SUURBALLE.
-/

namespace Pctsp.Tests

open Pctsp

/-- `getEdgeVector`, fixtures.cpp 22-62, and `getCompleteEdgeVector`, 4-12. -/
def fxEdges : Nat → List (Nat × Nat)
  | 4 => [(0,1), (0,2), (0,3), (1,2), (1,3), (2,3)]
  | 5 => [(0,1), (0,2), (0,3), (0,4), (1,2), (1,3), (1,4), (2,3), (2,4), (3,4)]
  | 8 => [(0,1), (0,2), (1,3), (1,4), (2,3), (3,5), (4,5), (4,6), (5,7), (6,7)]
  | _ => [(0,1), (0,2), (0,4), (1,3), (1,4), (1,5), (2,5), (2,7), (3,6), (4,6), (5,7), (6,7)]

/-- `getNumVertices`, fixtures.cpp 64-73. -/
def fxOrder : Nat → Nat
  | 4 => 4
  | 5 => 5
  | _ => 8

/-- `getGraph`, fixtures.cpp 14-20. -/
def fx (k : Nat) : Graph := ⟨fxOrder k, fxEdges k⟩

/-- `getCostMap`, fixtures.cpp 75-126. -/
def fxCost : Nat → Nat → Int
  | 4, e => e
  | 5, e => e
  | 8, e => if e = 3 ∨ e = 5 then 5 else 1
  | _, e => [3, 2, 8, 1, 4, 6, 5, 3, 5, 1, 2, 7].getD e 0

/-- `getPrizeMap`, fixtures.cpp 128-149. -/
def fxPrize : Nat → Nat → Int
  | 4, v => v
  | 5, v => v
  | _, _ => 1

/-- `getQuota`, fixtures.cpp 176-190. -/
def fxQuota : Nat → Int
  | 4 => 4
  | 5 => 4
  | _ => 6

/-- `getSmallTour`, fixtures.cpp 208-220. -/
def fxSmall : Nat → List Nat
  | 4 => [0, 1, 2, 0]
  | 5 => [0, 1, 2, 0]
  | 8 => [0, 1, 3, 2, 0]
  | _ => [0, 1, 5, 2, 0]

/-- `getPrizeFeasibleTour`, fixtures.cpp 222-234. -/
def fxFeasible : Nat → List Nat
  | 4 => [0, 2, 3, 0]
  | 5 => [0, 2, 3, 0]
  | 8 => [0, 1, 4, 5, 3, 2, 0]
  | _ => [0, 1, 3, 6, 7, 2, 0]

/-- The prize of a tour that a heuristic returned. -/
def prizeAfter (k : Nat) (r : Res (List Nat)) : Option Int :=
  match r with
  | .ok t => match totalPrizeOfTour (fxPrize k) t with
    | .ok p => some p
    | _ => none
  | _ => none

/-- The size of a tour that a heuristic returned. -/
def sizeAfter (r : Res (List Nat)) : Option Nat :=
  match r with
  | .ok t => some t.length
  | _ => none

/-- The call returned normally and its result passes a check. -/
def okAnd {α : Type} (r : Res α) (p : α → Bool) : Bool :=
  match r with
  | .ok a => p a
  | _ => false

end Pctsp.Tests
