import Verif.Tests.Fixtures
import Verif.Model.Preprocess
import Verif.Model.Tailing
import Verif.Model.Maxflow
import Verif.Model.Logs
import Verif.Model.Branching
import Verif.Model.Knapsack
import Verif.Model.Binding
import Verif.Lemmas.Dijkstra

/-!
# Further tests of the repository on the model

tests/test_preprocessing.py, test_subtour_elimination.cpp, test_logger.cpp, test_branching.cpp, test_knapsack.cpp, test_heuristic.py, and the
costs that the tests of the solver expect.
-/

namespace Pctsp.Tests

open Pctsp

/-! ## test_preprocessing.py -/

/-- `nx.Graph(edges)`: nodes and neighbours in the order of insertion. -/
def nxOf (es : List (Nat × Nat)) : NxGraph Nat where
  nodes := es.foldl (fun l e => [e.1, e.2].foldl (fun l v => if v ∈ l then l else l ++ [v]) l) []
  adj u := es.flatMap fun e => if e.1 = u then [e.2] else if e.2 = u then [e.1] else []

/-- The numbers of nodes and edges. -/
def nxSize (g : NxGraph Nat) : Nat × Nat := (g.nodes.length, (g.nodes.map fun v => (g.adj v).length).sum / 2)

/-- `disconnected_graph`, conftest.py. -/
def disc : NxGraph Nat := nxOf [(0, 1), (1, 2), (0, 2), (3, 4), (5, 6), (2, 7)]

-- test_remove_leaves, 14-25
example : okAnd (removeLeaves 10 disc) (fun g => nxSize g == (3, 3)) = true := by decide +kernel
example : okAnd (removeLeaves 10 (nxOf (fxEdges 5))) (fun g => nxSize g == (5, 10)) = true := by decide +kernel

-- test_remove_components, 28-38; the component of the root is {0, 1, 2, 7}
example : okAnd (removeDisconnected (fun _ _ => [0, 1, 2, 7]) disc 0) (fun g => nxSize g == (4, 4)) = true := by decide +kernel
example : okAnd (removeDisconnected (fun _ _ => [0, 1, 2, 3, 4]) (nxOf (fxEdges 5)) 0) (fun g => nxSize g == (5, 10)) = true := by decide +kernel

-- test_remove_one_connected_components, 41-55, with the biconnected components of the four graphs
example : (removeOneConnected (fun _ => [[2, 3], [1, 2], [0, 1]]) (nxOf [(0, 1), (1, 2), (2, 3)]) 0).nodes = [0] := by decide +kernel
example : (removeOneConnected (fun _ => [[0, 1, 2], [4, 5], [0, 3, 4]])
    (nxOf [(0, 1), (1, 2), (2, 0), (0, 3), (3, 4), (0, 4), (4, 5)]) 0).nodes.length = 5 := by decide +kernel
example : (removeOneConnected (fun _ => [[0, 1, 2]]) (nxOf [(0, 1), (0, 2), (1, 2)]) 0).nodes.length = 3 := by decide +kernel
example : (removeOneConnected (fun _ => [[5, 7], [3, 4, 5], [0, 3], [0, 1, 2]])
    (nxOf [(0, 1), (0, 2), (1, 2), (0, 3), (3, 4), (4, 5), (3, 5), (5, 7)]) 0).nodes.length = 3 := by decide +kernel

/-! ## test_subtour_elimination.cpp -/

-- testIsNodeTailingOff and testPushIntoRollingLpGapList
example : isNodeTailingOff (· - ·) (fun a b => decide (a < b)) [(9 / 5 : Rat), 8 / 5, 13 / 10, 6 / 5, 1] 1 5 = true := by decide +kernel
example : isNodeTailingOff (· - ·) (fun a b => decide (a < b)) [(9 / 5 : Rat), 8 / 5, 13 / 10, 6 / 5, 1] (1 / 10) 5 = false := by decide +kernel
example : isNodeTailingOff (· - ·) (fun a b => decide (a < b)) [(9 / 5 : Rat), 8 / 5, 13 / 10, 6 / 5, 1] 1 10 = false := by decide +kernel
example : pushIntoRollingLpGapList [(9 / 5 : Rat), 8 / 5, 13 / 10, 6 / 5, 1] (4 / 5) 5 = [8 / 5, 13 / 10, 6 / 5, 1, 4 / 5] := by decide +kernel

/-- The vertices that can be reached in `k` steps: a stand-in for `boost::depth_first_visit`. -/
def reachIn (es : List (Nat × Nat)) : Nat → List Nat → List Nat
  | 0, l => l
  | k + 1, l => reachIn es k (es.foldl (fun l e => if e.1 ∈ l ∧ e.2 ∉ l then e.2 :: l else l) l)

-- testGetUnreachableVertices
example : getUnreachableVertices (fun es s v => decide (v ∈ reachIn es 6 [s])) 6
    [((0, 1), 1), ((1, 2), 1), ((2, 3), 1), ((3, 4), 0), ((4, 5), 1)] 0 (fun i => if i = 3 then 0 else 1) = [4, 5] := by decide +kernel

/-! ## test_logger.cpp, test_branching.cpp, test_knapsack.cpp -/

-- the level of warnings is 3 in Boost
example : boostLevel 30 = 3 := by decide +kernel

/-- Some of SCIP's default rules. -/
def scipRules : List BranchRule :=
  [⟨"relpscost", 10000, -1⟩, ⟨"pscost", 2000, -1⟩, ⟨"inference", 1000, -1⟩, ⟨"mostinf", 100, -1⟩, ⟨"fullstrong", 0, -1⟩]

example : ((setStrongBranching scipRules).filter fun r => r.name == "fullstrong" || r.name == "relpscost").map (·.priority) = [3000, 4000] := by
  decide +kernel
example : okAnd (setBranchingStrategy scipRules 2 1) (fun rs =>
    rs.filter (fun r => r.name == "fullstrong" || r.name == "relpscost") == [⟨"relpscost", 3000, -1⟩, ⟨"fullstrong", 4000, 1⟩]) = true := by
  decide +kernel
example : knapsack (fun _ => true) [1, 2, 3, 4] [20, 15, 35, 15] 50 = .ok ⟨true, []⟩ := by decide +kernel

/-! ## test_heuristic.py: test_collapse, quota 5 on Suurballe's graph -/

example : okAnd (collapse (fx 9) [0, 1, 4, 6, 7, 2, 0] (fxCost 9) (fxPrize 9) 5 0 false (fun _ => exPick)) (fun t =>
    totalCost (fx 9) (fxCost 9) t == .ok 16 && decide (totalPrizeOfTour (fxPrize 9) t = .ok 5) && t.head? == some 0 && t.getLast? == some 0) = true := by
  decide +kernel

/-! ## The optimal costs that the tests of the solver expect

All simple cycles through vertex 0 with at least three vertices are enumerated. -/

/-- The simple paths from vertex 0 (written backwards) with at most `k` further vertices that extend `p`. -/
def simplePaths (g : Graph) : Nat → List Nat → List (List Nat)
  | 0, p => [p]
  | k + 1, p => p :: ((g.adjacent (p.headD 0)).filter fun v => decide (v ∉ p)).flatMap fun v => simplePaths g k (v :: p)

/-- The tours from vertex 0. -/
def allTours (k : Nat) : List (List Nat) :=
  ((simplePaths (fx k) (fxOrder k) [0]).filter fun p => decide (3 ≤ p.length) && ((fx k).edgeIdx (p.headD 0) 0).isSome).map (0 :: ·)

/-- The least cost of a tour whose prize is at least the quota. -/
def bestCost (k : Nat) (prize : Nat → Int) (quota : Int) : Option Int :=
  (((allTours k).filter fun t => okAnd (totalPrizeOfTour prize t) fun p => decide (quota ≤ p)).filterMap fun t =>
    match totalCost (fx k) (fxCost k) t with
    | .ok c => some c
    | _ => none).foldl (fun m c => some (min c (m.getD c))) none

-- testCycleCover, with prizes 1
example : [4, 5, 8, 9].map (fun k => bestCost k (fun _ => 1) (fxQuota k)) = [some 10, some 12, some 14, some 20] := by decide +kernel
-- testSubtourParams, quota 4
example : [4, 5, 8, 9].map (fun k => bestCost k (fxPrize k) 4) = [some 6, some 7, some 4, some 16] := by decide +kernel
-- testTailingOff, and test_pctsp_on_suurballes_graph
example : [4, 5, 8, 9].map (fun k => bestCost k (fxPrize k) (fxQuota k)) = [some 6, some 7, some 14, some 20] := by decide +kernel
-- testPathCostCover (SUURBALLE, quota 3), test_cost_cover_disjoint_paths_suurballes (quota 1)
example : bestCost 9 (fxPrize 9) 3 = some 15 ∧ bestCost 9 (fxPrize 9) 1 = some 15 := by decide +kernel

end Pctsp.Tests
