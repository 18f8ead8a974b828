import Verif.Tests.Fixtures
import Verif.Lemmas.SuurballeExamples
import Verif.Model.DisjointMap
import Verif.Model.PyHeuristic

/-!
# tests/test_suurballe.py, and tests/test_heuristic.py on Suurballe's heuristic, on the model

`nx.single_source_dijkstra` is a parameter of the model; here it is the algorithm of networkx, so that the dictionaries have their order.
-/

namespace Pctsp.Tests

open Pctsp

/-- The state of networkx's Dijkstra: `dist` and `paths` with their keys in order, `seen`, and the fringe with its counter. -/
structure NxDij where
  dist : List (Nat × Int)
  paths : List (Nat × List Nat)
  seen : List (Nat × Int)
  fringe : List (Int × Nat × Nat)
  count : Nat

/-- The smallest entry of the fringe: least distance, then least counter. -/
def popMin : List (Int × Nat × Nat) → Option (Int × Nat × Nat)
  | [] => none
  | x :: xs => match popMin xs with
    | none => some x
    | some y => if x.1 < y.1 ∨ (x.1 = y.1 ∧ x.2.1 < y.2.1) then some x else some y

/-- The loop of `_dijkstra_multisource`. -/
def nxDijLoop (G : DiGraph Nat) : Nat → NxDij → NxDij
  | 0, s => s
  | fuel + 1, s =>
    match popMin s.fringe with
    | none => s
    | some (d, c, v) =>
      let s := { s with fringe := s.fringe.erase (d, c, v) }
      if (dictGet s.dist v).isSome then nxDijLoop G fuel s
      else
        let s := { s with dist := s.dist ++ [(v, d)] }
        nxDijLoop G fuel ((G.succ v).foldl (fun s u =>
          let du := d + G.weight v u
          if (dictGet s.dist u).isSome then s
          else if ((dictGet s.seen u).map fun x => decide (x ≤ du)).getD false then s
          else { s with
            seen := dictSet s.seen u du, fringe := s.fringe ++ [(du, s.count, u)], count := s.count + 1,
            paths := dictSet s.paths u ((dictGet s.paths v).getD [] ++ [u]) }) s)

/-- `nx.single_source_dijkstra(G, source)`. -/
def nxDijkstra (G : DiGraph Nat) (fuel source : Nat) : DijkstraOut Nat :=
  let s := nxDijLoop G fuel ⟨[], [(source, [source])], [(source, 0)], [(0, 0, source)], 1⟩
  { distKeys := s.dist.map (·.1), dist := fun v => (dictGet s.dist v).getD 0,
    pathKeys := s.paths.map (·.1), path := fun v => (dictGet s.paths v).getD [] }

/-- `suurballes_directed_graph`, conftest.py 90-104 and 165-171. -/
def sGraph : DiGraph Nat := DiGraph.ofEdges 8
  [((0, 1), 3), ((0, 4), 8), ((0, 2), 2), ((1, 3), 1), ((1, 4), 4), ((1, 5), 6), ((2, 5), 5), ((3, 6), 5), ((4, 6), 1), ((5, 7), 2),
    ((7, 2), 3), ((7, 6), 7)]

/-- Its shortest paths from vertex 0. -/
def sDij : DijkstraOut Nat := nxDijkstra sGraph 20 0

/-! ## test_adjust_edge_cost, test_adjusted_edge_cost_for_graph, test_find_parents_in_shortest_path_tree -/

example : adjustEdgeCost 5 5 10 = 0 ∧ adjustEdgeCost 5 7 10 = 2 := by decide +kernel
example : (List.range 8).map (fun u => (sGraph.succ u).map fun v => (v, adjustEdgeCost (sGraph.weight u v) (sDij.dist u) (sDij.dist v))) =
    [[(1, 0), (4, 1), (2, 0)], [(3, 0), (4, 0), (5, 2)], [(5, 0)], [(6, 1)], [(6, 0)], [(7, 0)], [], [(2, 10), (6, 8)]] := by decide +kernel
example : (List.range 8).map (parentInTree sDij.path) =
    [none, some 0, some 0, some 1, some 1, some 2, some 4, some 5] := by decide +kernel

/-! ## test_preorder, test_postorder, test_is_ancestor -/

/-- The tree, conftest.py: edges 01 02 13 14 26 27. -/
def sTreeSucc : Nat → List Nat
  | 0 => [1, 2]
  | 1 => [3, 4]
  | 2 => [6, 7]
  | _ => []

example : okAnd (preorder sTreeSucc 10 0) (fun r => r.2 == [0, 1, 3, 4, 2, 6, 7]) = true := by decide +kernel
example : okAnd (postorder sTreeSucc 10 0) (fun r => r.2 == [3, 4, 1, 6, 7, 2, 0]) = true := by decide +kernel
example : okAnd (preorder sTreeSucc 10 0) (fun pre => okAnd (postorder sTreeSucc 10 0) fun post =>
    [0, 1, 2, 3, 4].all (isAncestor pre.1 post.1 0) && !isAncestor pre.1 post.1 1 0) = true := by decide +kernel

/-! ## test_suurballe, test_edge_disjoint_path_cost, test_extract_suurballe_edge_disjoint_paths -/

/-- The run of the tests. -/
def sRun : Res (STree Nat × SState Nat) := suurballe sGraph sDij 100 0

example : okAnd sRun (fun r => (List.range 8).map r.2.children == [[], [3], [], [], [], [], [], []]) = true := by decide +kernel
example : okAnd sRun (fun r => (List.range 8).map r.2.tent == [0, maxsize, 12, maxsize, 1, 2, 2, maxsize]) = true := by decide +kernel
example : okAnd sRun (fun r => (List.range 8).map r.2.inc == [[], [], [], [], [], [], [], []]) = true := by decide +kernel
example : okAnd sRun (fun r => (List.range 8).map r.2.labeled == [true, false, true, false, true, true, true, false]) = true := by decide +kernel
example : okAnd sRun (fun r => (List.range 8).map r.2.pred == [none, none, some 7, none, some 0, some 1, some 3, none]) = true := by
  decide +kernel
example : okAnd sRun (fun r => (List.range 8).map r.2.cause == [none, none, some 5, none, some 0, some 0, some 4, none]) = true := by
  decide +kernel
example : okAnd sRun (fun r => (List.range 8).all fun v => edgeDisjointPathCost r.1 r.2 v ==
    if r.2.labeled v then 2 * sDij.dist v + r.2.tent v else maxsize) = true := by decide +kernel
example : okAnd sRun (fun r => (List.range 8).map (extractPaths r.1 r.2 100 0) ==
    [.ok ([0], []), .ok ([], []), .ok ([0, 1, 5, 7, 2], [0, 2]), .ok ([], []), .ok ([0, 4], [0, 1, 4]), .ok ([0, 1, 5], [0, 2, 5]),
      .ok ([0, 1, 3, 6], [0, 4, 6]), .ok ([], [])]) = true := by decide +kernel

/-! ## test_heuristic.py: test_suurballes_heuristic; test_algorithms.py: test_cost_cover_disjoint_paths_suurballes

The split graph is the one of `asymmetric_from_undirected` with other names for the vertices: `2v` for the tail, `2v + 1` for the head of `v`. -/

/-- The split graph of `suurballes_undirected_graph`. -/
def sSplit : DiGraph Nat := DiGraph.ofEdges 16
  ((List.range 8).map (fun v => ((2 * v, 2 * v + 1), 0)) ++
    ([((0, 1), 3), ((0, 4), 8), ((0, 2), 2), ((1, 3), 1), ((1, 4), 4), ((1, 5), 6), ((2, 5), 5), ((3, 6), 5), ((4, 6), 1), ((5, 7), 2),
      ((7, 2), 3), ((7, 6), 7)] : List ((Nat × Nat) × Int)).flatMap fun e =>
        [((2 * e.1.1 + 1, 2 * e.1.2), e.2), ((2 * e.1.2 + 1, 2 * e.1.1), e.2)])

/-- A list without repetitions of neighbours. -/
def squeeze : List Nat → List Nat
  | a :: b :: l => if a = b then squeeze (b :: l) else a :: squeeze (b :: l)
  | l => l

/-- The names. -/
def sNames : SplitNames Nat Nat := { isTail := fun w => w % 2 == 0, original := fun w => w / 2, path := fun l => squeeze (l.map (· / 2)) }

/-- Its shortest paths from the head of the root. -/
def splitDij : DijkstraOut Nat := nxDijkstra sSplit 60 1

/-- The cost map of a run. -/
def splitCosts (r : STree Nat × SState Nat) : List (Nat × Int) := vertexDisjointCostMap sNames r.1 r.2 (treeNodes 1 splitDij)

/-- The heuristic for a quota. -/
def splitTour (quota : Int) (r : STree Nat × SState Nat) : Res (List Nat) := do
  let m ← undirectedVertexDisjointPathsMap sNames r.1 r.2 (treeNodes 1 splitDij)
  suurballesHeuristic maxsize (fun t => (t.length : Int) - 1) quota (dictGet (splitCosts r)) m

-- the tour is one of [0, 1, 5, 7, 2, 0] and [0, 1, 5, 2, 0]; its cost is 16
example : okAnd (suurballe sSplit splitDij 100 1) (fun r => splitTour 5 r == .ok [0, 1, 5, 7, 2, 0]) = true := by decide +kernel
example : totalCost (fx 9) (fxCost 9) [0, 1, 5, 7, 2, 0] = .ok 16 := by decide +kernel

-- num_cost_cover_disjoint_paths == 5 with the optimal cost 15 (and num_cost_cover_shortest_paths == 1, see Tests/Graph.lean)
example : okAnd (suurballe sSplit splitDij 100 1) (fun r => ((splitCosts r).filter fun e => decide (e.2 > 15)).length == 5) = true := by
  decide +kernel

end Pctsp.Tests
