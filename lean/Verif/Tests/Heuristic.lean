import Verif.Tests.Fixtures
import Verif.Model.Collapse
import Verif.Lemmas.Dijkstra

/-!
# tests/test_heuristic.cpp on the model

The arithmetic is binary32 (`FloatOps.float`), the heap takes the first vertex of least distance (`exPick`). Where the test asks
less than the whole tour, the tour that the model returns is given too.
-/

namespace Pctsp.Tests

open Pctsp

/-! ## testUnitaryGain, 23-28 -/

example : unitaryGain FloatOps.float 10 2 2 2 = .fin 5 := by decide +kernel
example : unitaryGain FloatOps.float 2 0 1 3 = .fin (1 / 2) := by decide +kernel
example : unitaryGain FloatOps.float 10 15 5 5 = .fin (-2) := by decide +kernel

/-! ## testCalculateAverageGain, 30-65 -/

/-- The gains 1, 2, 6 of the vertices 4, 5, 6. -/
def avgMap : GainMap Ext
  | 4 => some ⟨.fin 1, some 1⟩
  | 5 => some ⟨.fin 2, some 2⟩
  | 6 => some ⟨.fin 6, some 3⟩
  | _ => none

example : calculateAverageGain FloatOps.float 7 (fun v => decide (v ≤ 3)) avgMap = .fin 3 := by decide +kernel
example : calculateAverageGain FloatOps.float 7 (fun v => decide (v ≤ 4)) avgMap = .fin 4 := by decide +kernel

/-! ## testUnitaryGainOfVertex, 67-87 (`EXPECT_FLOAT_EQ`: `3 / 7` is rounded) -/

/-- The value of a gain entry. -/
def gainValue (r : Res (GainEntry Ext)) : Option Ext :=
  match r with
  | .ok e => some e.value
  | _ => none

example : gainValue (unitaryGainOfVertex FloatOps.float (fx 4) [0, 1, 2, 0] (fxCost 4) (fxPrize 4) 3) = some (.fin (1 / 2)) := by
  decide +kernel
example : gainValue (unitaryGainOfVertex FloatOps.float (fx 5) [0, 1, 2, 0] (fxCost 5) (fxPrize 5) 3) = some (binary32 (3 / 7)) := by
  decide +kernel

/-! ## testExtensionUnitaryGain, 89-109 and 111-135 -/

/-- The call of the test. -/
def gainRun (k : Nat) : Res (List Nat) := extensionUnitaryGain FloatOps.float (fx k) (fxFeasible k) (fxCost k) (fxPrize k)

example : gainRun 4 = .ok [0, 2, 3, 0] := by decide +kernel
example : gainRun 5 = .ok [0, 2, 1, 3, 0] := by decide +kernel
example : gainRun 8 = .ok [0, 1, 4, 5, 3, 2, 0] := by decide +kernel
example : gainRun 9 = .ok [0, 1, 3, 6, 7, 5, 2, 0] := by decide +kernel
example : [4, 5, 8, 9].map (fun k => (prizeAfter k (gainRun k), prizeAfter k (.ok (fxFeasible k)))) =
    [(some 5, some 5), (some 6, some 5), (some 6, some 6), (some 7, some 6)] := by decide +kernel

/-! ## testExtensionUntilPrizeFeasible, 137-154 -/

/-- The call of the test. -/
def untilRun (k : Nat) : Res (List Nat) :=
  extensionUntilPrizeFeasible FloatOps.float (fx k) (fxSmall k) (fxCost k) (fxPrize k) (fxQuota k)

example : untilRun 4 = .ok [0, 3, 1, 2, 0] := by decide +kernel
example : untilRun 5 = .ok [0, 4, 1, 2, 0] := by decide +kernel
example : untilRun 8 = .ok [0, 1, 3, 2, 0] := by decide +kernel
example : untilRun 9 = .ok [0, 4, 1, 5, 7, 2, 0] := by decide +kernel
example : [4, 5, 8, 9].map (fun k => (prizeAfter k (untilRun k), fxQuota k)) =
    [(some 6, 4), (some 7, 4), (some 4, 6), (some 6, 6)] := by decide +kernel

/-! ## testCollapse and testCollapseShortestPath, 156-221 and 224-289 -/

/-- The tour that is collapsed. -/
def collapseTour : Nat → List Nat
  | 4 => [0, 1, 2, 3, 0]
  | 5 => [0, 1, 2, 3, 4, 0]
  | 8 => [0, 1, 4, 6, 7, 5, 3, 2, 0]
  | _ => [0, 1, 4, 6, 7, 2, 0]

/-- The quota. -/
def collapseQuota (k : Nat) : Int := if k = 9 then 4 else fxQuota k

/-- The tour that the test expects. -/
def collapseExpected : Nat → List Nat
  | 4 => [0, 1, 3, 0]
  | 5 => [0, 1, 2, 3, 0]
  | 8 => [0, 1, 4, 5, 3, 2, 0]
  | _ => [0, 1, 5, 2, 0]

example : ∀ k ∈ [4, 5, 8, 9], ∀ sp ∈ [false, true],
    collapse (fx k) (collapseTour k) (fxCost k) (fxPrize k) (collapseQuota k) 0 sp (fun _ => exPick) = .ok (collapseExpected k) := by
  decide +kernel

/-! ## testNeighborIntersection, 304-332 -/

example : [4, 5, 8, 9].map (fun k => sizeAfter (neighborIntersection (fx k) 0 1)) = [some 2, some 3, some 0, some 1] := by decide +kernel

/-! ## testExtensionUnitaryLoss, 334-354 -/

/-- The tour of the test. -/
def lossTour (k : Nat) : List Nat := if k = 9 then [0, 1, 3, 6, 7, 2, 0] else fxSmall k

example : [4, 5, 8, 9].map (fun k => (sizeAfter (extensionUnitaryLoss FloatOps.float (fx k) (lossTour k) (fxCost k) (fxPrize k) 0),
    (lossTour k).length)) = [(some 4, 4), (some 5, 4), (some 5, 5), (some 8, 7)] := by decide +kernel

/-! ## testExtensionStep, 356-372 -/

example : [4, 5, 8, 9].map (fun k => sizeAfter (pathExtension FloatOps.float (fx k) (fxSmall k) (fxCost k) (fxPrize k) 0 2 2)) =
    [4, 5, 8, 9].map (fun k => some (fxSmall k).length) := by decide +kernel

/-! ## testPathExtensionUntilPrizeFeasible, 374-391, and testExtensionPathDepth, 416-434 -/

/-- The call of the tests. -/
def pathUntilRun (depth k : Nat) : Res (List Nat) :=
  pathExtensionUntilPrizeFeasible FloatOps.float (fx k) (fxSmall k) (fxCost k) (fxPrize k) 0 (fxQuota k) 1 depth

example : [4, 5, 8, 9].map (fun k => (prizeAfter k (pathUntilRun 2 k)).map fun p => decide (p ≥ fxQuota k)) =
    [some true, some true, some false, some true] := by decide +kernel
example : [4, 5, 8, 9].map (fun k => (prizeAfter k (pathUntilRun 3 k)).map fun p => decide (p ≥ fxQuota k)) =
    [some true, some true, some true, some true] := by decide +kernel

/-! ## testSwapPathsInTour, 393-402, and testSwapPathsInTourWithRoot, 405-414 -/

example : ∀ k ∈ [4, 5, 8, 9], sizeAfter (swapPathsInTour (fxSmall k) [5, 8, 0, 10] 1 3) = some ((fxSmall k).length - 3 + 4) := by decide +kernel
example : ∀ k ∈ [4, 5, 8, 9], sizeAfter (swapPathsInTour (fxSmall k) [5, 8, 0, 10] 3 1) =
    some ((fxSmall k).length + 4 + 1 - ((fxSmall k).length - 3 + 1 + 1)) := by decide +kernel

/-! ## testPathExtensionCollapse, 436-453 -/

/-- The call of the test. -/
def pecRun (k : Nat) : Res (List Nat) :=
  pathExtensionCollapse FloatOps.float (fx k) (fxSmall k) (fxCost k) (fxPrize k) (fxQuota k) 0 false (fun _ => exPick) (fun _ _ => exPick)
    (fxOrder k) 1

example : [4, 5, 8, 9].map (fun k => (prizeAfter k (pecRun k)).map fun p => decide (p ≥ fxQuota k)) =
    [some true, some true, some true, some true] := by decide +kernel

end Pctsp.Tests
