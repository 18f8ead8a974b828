import Verif.Tests.Fixtures
import Verif.Model.GraphCycle
import Verif.Model.GraphUtil
import Verif.Model.Filter
import Verif.Model.Renaming
import Verif.Model.SimpleCycle
import Verif.Model.CostCover
import Verif.Lemmas.Dijkstra

/-!
# tests/test_walk.cpp, test_graph.cpp, test_rename.cpp, test_separation.cpp, test_sciputils.cpp, test_cost_cover.cpp on the model

Answers of SCIP that the tests depend on are not replayed; of test_cost_cover.cpp the rows for the bounds at the start and at the end are.
-/

namespace Pctsp.Tests

open Pctsp

/-! ## test_walk.cpp -/

-- testTotalPrize, 12-17 and 26-43; testTotalPrizeOfTour, 19-24
example : totalPrize (fxPrize 9) [0, 1, 3, 6, 7, 2, 0] = 7 := by decide +kernel
example : totalPrizeOfTour (fxPrize 9) [1, 3, 6, 7, 2, 0, 1] = .ok 6 := by decide +kernel
example : ∀ k ∈ [4, 5], totalPrize (fxPrize k) [1, 2, 3] = 6 ∧ totalPrize (fxPrize k) [] = 0 ∧ totalPrize (fxPrize k) [1] = 1 := by
  decide +kernel

-- testTotalCost, 45-62
example : totalCost (fx 9) (fxCost 9) [0, 1, 3, 6, 7, 2, 0] = .ok 21 := by decide +kernel
example : totalCost (fx 9) (fxCost 9) [] = .ok 0 := by decide +kernel
example : totalCost (fx 9) (fxCost 9) [0, 1, 2, 0] = .throw (.edgeNotFound 1 2) := by decide +kernel

-- TestReorderTourFromRoot, 64-86
example : ∀ t ∈ [[1, 2, 3, 0, 1], [0, 1, 2, 3, 0], [0], [], [0, 0]], (reorderTourFromRoot t 0).takeWhile (· ≠ 0) = [] := by decide +kernel
example : reorderTourFromRoot [1, 2, 3, 0, 1] 0 = [0, 1, 2, 3, 0] := by decide +kernel

-- testIsInternalVertexOfWalk, 88-96
example : isInternalVertexOfWalk [0, 1, 2, 3, 0] 1 = .ok true ∧ isInternalVertexOfWalk [0, 1, 2, 3, 0] 0 = .ok false ∧
    isInternalVertexOfWalk [0, 1, 2, 3, 0] 4 = .ok false := by decide +kernel

-- testGetEdgeVector, 98-116
example : ∀ k ∈ [4, 5], sizeAfter (getEdgesInWalk (fx k) [0, 1, 2, 3, 0]) = some 4 := by decide +kernel
example : (getEdgesInWalk (fx 4) [0, 1, 2, 3, 0]).bind (mapRes (fx 4).ends) = .ok [(0, 1), (1, 2), (2, 3), (0, 3)] := by decide +kernel

/-- The distance, colour and path that testShortestPathBlacklist, 118-141, looks at. -/
def blacklistRun : Option (Option Int × Color × List Nat) :=
  match dijkstra (fx 9) (fxCost 9) (fun v => v == 2) (some 7) exPick 0 with
  | .ok (_, st) => some (st.dist 7, st.color 2, pathInTreeFromParents st.pred 8 7)
  | _ => none

example : blacklistRun = some (some 11, .black, [0, 1, 5, 7]) := by decide +kernel

/-! ## test_graph.cpp -/

/-- Edge descriptors of the edges at vertex 0. -/
def edgesAtZero (k : Nat) : List Nat :=
  ((fxEdges k).zipIdx.filter fun p => p.1.1 == 0 || p.1.2 == 0).map (·.2)

-- testGetVertexPairVectorFromEdgeSubset, 9-23
example : ∀ k ∈ [4, 5, 8, 9], okAnd (getVertexPairVectorFromEdgeSubset (fx k) (edgesAtZero k)) fun ps =>
    decide (ps.length ≥ 2 ∧ ∀ p ∈ ps, p.1 = 0 ∨ p.2 = 0) := by decide +kernel

/-- The path on four vertices that two tests build. -/
def path4 : Graph := graphOf [(0, 1), (1, 2), (2, 3)]

-- testGetVerticesOfEdges, 25-41; testEdgesFromVertexPairs, 43-65
example : getVerticesOfEdges path4 [0, 1] = .ok [0, 1, 2] := by decide +kernel
example : edgesFromVertexPairs path4 path4.edges = .ok [0, 1, 2] := by decide +kernel

-- testGetSelfLoops, 67-82
example : ∀ k ∈ [4, 5, 8, 9], (getSelfLoops ((fx k).addEdges [(0, 0), (1, 1), (3, 3)]) [0, 1, 3]).bind
    (mapRes ((fx k).addEdges [(0, 0), (1, 1), (3, 3)]).ends) = .ok [(0, 0), (1, 1), (3, 3)] := by decide +kernel

-- testGetEdgesInducedByVertices, 84-111
example : [4, 5, 8, 9].map (fun k => sizeAfter (getEdgesInducedByVertices (fx k) [0, 1, 2, 3])) = [some 6, some 6, some 4, some 3] := by
  decide +kernel

-- testGetSubpathOfCycle, 113-132
example : getSubpathOfCycle [0, 1, 2, 0] 1 3 = .ok [1, 2, 0] ∧ getSubpathOfCycle [0, 1, 2, 0] 2 1 = .ok [2, 0, 1] := by decide +kernel

/-- Depth first search as a fold, which the kernel can evaluate. -/
def dfsFold (g : Graph) : Nat → Nat → (Nat → Bool) × (Nat → Nat) → (Nat → Bool) × (Nat → Nat)
  | 0, source, st => (upd st.1 source true, st.2)
  | d + 1, source, st =>
    (g.adjacent source).foldl (fun st v => if st.1 v then st else dfsFold g d v (st.1, upd st.2 v source)) (upd st.1 source true, st.2)

theorem dfs_eq_fold (g : Graph) (d source : Nat) (st : (Nat → Bool) × (Nat → Nat)) : dfs g source d st = dfsFold g d source st := by
  induction d generalizing source st with
  | zero => rw [dfs]; rfl
  | succ d ih =>
    have key : ∀ (l : List Nat) (st : (Nat → Bool) × (Nat → Nat)), dfsList g source d l st =
        l.foldl (fun st v => if st.1 v then st else dfsFold g d v (st.1, upd st.2 v source)) st := by
      intro l
      induction l with
      | nil => intro st; rw [dfsList]; rfl
      | cons v l ihl =>
        intro st
        rw [dfsList, List.foldl_cons]
        by_cases h : st.1 v = true
        · rw [if_pos h, if_pos h]; exact ihl st
        · rw [if_neg h, if_neg h, ih]; exact ihl _
    rw [dfs]; exact key _ _

-- testDepthFirstSearch, 134-164
example : [4, 5, 8, 9].map (fun k => (List.range (fxOrder k)).map (dfs (fx k) 0 2 (fun _ => false, fun _ => 0)).1) =
    [List.replicate 4 true, List.replicate 5 true, [true, true, true, true, true, false, false, false],
      [true, true, true, true, true, true, false, true]] := by
  simp only [dfs_eq_fold]
  decide +kernel

/-- The vertices marked by a search of depth 2 from vertex 0. -/
def bfsRun (k : Nat) : Option (List Bool) :=
  match breadthFirstSearch (fx k) 0 (fun _ => false) (fun _ => 0) 2 with
  | .ok (m, _) => some ((List.range (fxOrder k)).map m)
  | _ => none

-- testBreadthFirstSearch, 166-192
example : [4, 5, 8, 9].map bfsRun = [some (List.replicate 4 true), some (List.replicate 5 true),
    some [true, true, true, true, true, false, false, false], some (List.replicate 8 true)] := by decide +kernel

/-- The path of testPathInTreeFromParents, 194-224. -/
def bfsPath (k target : Nat) : Option (List Nat) :=
  match breadthFirstSearch (fx k) 0 (fun _ => false) (fun _ => 0) 2 with
  | .ok (_, p) => some (pathInTreeFromParents p (fxOrder k) target)
  | _ => none

example : bfsPath 8 4 = some [0, 1, 4] ∧ bfsPath 9 6 = some [0, 4, 6] ∧ bfsPath 4 1 = some [0, 1] ∧ bfsPath 5 1 = some [0, 1] := by
  decide +kernel

/-- The marks of testVertexFilter, 226-244. -/
def evenMarks (k : Nat) : List Bool := (List.range (fxOrder k)).map fun u => u % 2 == 0

example : ∀ k ∈ [4, 5, 8, 9], okAnd (filterMarkedVertices (fx k) (evenMarks k)).vertices fun vs => decide (∀ u ∈ vs, u % 2 = 0) := by
  decide +kernel
example : ∀ k ∈ [4, 5, 8, 9], okAnd (filterMarkedVertices (fx k) (evenMarks k)).edges fun es =>
    decide (∀ e ∈ es, e.1 % 2 = 0 ∨ e.2 % 2 = 0) := by decide +kernel

/-! ## test_rename.cpp -/

-- testRenameEdges, 4-13
example : mapRes (getOldVertex (renameEdges ([] : Bimap Nat) [(0, 1), (3, 4), (9, 10), (0, 10)]).2) [0, 1, 2, 3, 4, 5] =
    .ok [0, 1, 3, 4, 9, 10] := by decide +kernel

/-- `getBadlyNamedEdges`, fixtures.cpp 236-245. -/
def badEdges : Nat → List (Nat × Nat)
  | 0 => [(0, 1), (1, 2), (2, 3)]
  | 1 => [(10, 11), (11, 12), (12, 13)]
  | 2 => []
  | _ => [(5, 4), (5, 3), (4, 3), (3, 2), (2, 1), (2, 0)]

/-- `getOldPrizeMap`, fixtures.cpp 256-265. -/
def badPrizes : Nat → List (Nat × Int)
  | 0 => [(0, 5), (1, 4), (2, 3), (3, 2)]
  | 1 => [(10, 1), (11, 2), (12, 3), (13, 4)]
  | 2 => []
  | _ => [(0, 6), (1, 5), (2, 4), (3, 3), (4, 2), (5, 1)]

/-- Renaming the edges of a fixture. -/
def badRenamed (k : Nat) : List (Nat × Nat) × Bimap Nat := renameEdges [] (badEdges k)

-- testGetNewEdges, 15-21
example : ∀ k ∈ [0, 1, 2, 3], getNewEdges (badRenamed k).2 (badEdges k) = .ok (badRenamed k).1 := by decide +kernel

-- testFillCostMapFromRenamedMap, 23-36; the cost of the i-th edge is i, `getOldCostMap`, fixtures.cpp 247-254
example : ∀ k ∈ [0, 1, 2, 3], okAnd (fillCostMap (graphOf (badRenamed k).1) (badRenamed k).2
      ((badEdges k).zipIdx.map fun p => (p.1, (p.2 : Int))) (fun _ => -1)) fun c =>
    decide (∀ p ∈ (badRenamed k).1.zipIdx, ((graphOf (badRenamed k).1).edgeIdx p.1.1 p.1.2).map c = some (p.2 : Int)) := by decide +kernel

-- testFillRenamedVertexMap, 38-49
example : ∀ k ∈ [0, 1, 2, 3], okAnd (fillVertexMap (badRenamed k).2 (badPrizes k) (fun _ => -1)) fun c =>
    (List.range (badPrizes k).length).all fun i => okAnd (getOldVertex (badRenamed k).2 i) fun o => decide ((o, c i) ∈ badPrizes k) := by
  decide +kernel

-- testGetOldVertex, 51-62; testGetNewVertex, 64-75
example : getOldVertex ([(0, 1), (1, 2)] : Bimap Nat) 0 = .ok 1 ∧ getOldVertex ([(0, 1), (1, 2)] : Bimap Nat) 1 = .ok 2 ∧
    getNewVertex ([(0, 1), (1, 2)] : Bimap Nat) 1 = .ok 0 ∧ getNewVertex ([(0, 1), (1, 2)] : Bimap Nat) 2 = .ok 1 := by decide +kernel

/-! ## test_separation.cpp: testIsSimpleCycle, testIsGraphSimpleCycle -/

/-- All edges of a graph. -/
def allEdges (es : List (Nat × Nat)) : Res Bool := isSimpleCycle (graphOf es) (getEdgeVectorOfGraph (graphOf es))

example : allEdges [(0, 1), (1, 2), (2, 3), (3, 4), (4, 5)] = .ok false := by decide +kernel
example : allEdges [(0, 1), (1, 2), (2, 3), (3, 4), (4, 5), (0, 5)] = .ok true := by decide +kernel
example : allEdges [(0, 1), (1, 2), (3, 4), (4, 5), (0, 2), (3, 5)] = .ok false := by decide +kernel
example : allEdges [(0, 1), (1, 2), (2, 3), (0, 3)] = .ok true := by decide +kernel
example : allEdges [(0, 1), (1, 2), (0, 2), (3, 4), (4, 5), (3, 5)] = .ok false := by decide +kernel
example : allEdges [(0, 1), (1, 2), (2, 3), (3, 4)] = .ok false := by decide +kernel

-- testIsGraphSimpleCycle, 12-38
example : isGraphSimpleCycle (graphOf [(0, 1), (1, 2), (2, 3), (0, 3)]) 1 [0, 0, 0, 0] [0, 0, 0, 0] = .ok (true, [0, 0, 0, 0]) := by decide +kernel
example : isGraphSimpleCycle (graphOf [(0, 1), (1, 2), (0, 2), (3, 4), (4, 5), (3, 5)]) 2 [0, 0, 0, 1, 1, 1] [0, 0, 0, 0, 0, 0] =
    .ok (false, [0, 0, 0, 1, 1, 1]) := by decide +kernel
example : isGraphSimpleCycle (graphOf [(0, 1), (1, 2), (2, 3), (3, 4)]) 1 [0, 0, 0, 0, 0] [0, 0, 0, 0, 0] = .ok (false, [0, 0, 0, 0, 0]) := by
  decide +kernel

/-! ## test_sciputils.cpp: testFillPositiveNegativeVars -/

example : fillPositiveNegativeVars [10, 11, 12, 13] [20, 21] (List.replicate 6 0) (List.replicate 6 0) =
    .ok ([10, 11, 12, 13, 20, 21], [1, 1, 1, 1, -1, -1]) := by decide +kernel

/-! ## test_cost_cover.cpp -/

/-- The number of rows for an upper bound. -/
def coverCount (k : Nat) (ub : Int) : Option Nat :=
  match shortestPathCoverDistances (fx k) (fxCost k) exPick 0 with
  | .ok ds => some (separateCostCoverPaths (fx k) (fun v => ds.getD v 0) ub).length
  | _ => none

-- testPathCostCover: the optimal tours cost 4 (GRID8, quota 4) and 15 (SUURBALLE, quota 3)
example : coverCount 8 4 = some 4 ∧ coverCount 9 15 = some 1 := by decide +kernel

-- testShortestPathCostCover: the start tours cost 14 (GRID8), 5 (COMPLETE5), 4 (COMPLETE4) and 16 (SUURBALLE)
example : totalCost (fx 8) (fxCost 8) [0, 1, 4, 5, 3, 2, 0] = .ok 14 ∧ coverCount 8 14 = some 1 := by decide +kernel
example : totalCost (fx 5) (fxCost 5) [0, 1, 2, 0] = .ok 5 ∧ coverCount 5 5 = some 1 := by decide +kernel
example : totalCost (fx 4) (fxCost 4) [0, 1, 2, 0] = .ok 4 ∧ coverCount 4 4 = some 0 := by decide +kernel
example : totalCost (fx 9) (fxCost 9) [0, 1, 5, 2, 0] = .ok 16 ∧ coverCount 9 16 = some 0 := by decide +kernel

end Pctsp.Tests
