import Verif.Model.DisjointMap
import Verif.Model.Preprocess

/-!
# Python: statistics of the instances

Model of `get_graph_stats`, pctsp/apps/dataset_app.py 113-178, without the metricness.  Quotients are exact.
-/

namespace Pctsp

variable {V W : Type}

/-- `total_prize(prize_map, vertices)` of tspwplib: one summand for every element of the list. -/
def pathPrize (π : V → Int) (vs : List V) : Int := (vs.map π).sum

/-- The prize of a pair of paths, dataset_app.py 150-155. -/
def pairPrize (π : V → Int) (root u : V) (paths : List V × List V) : Int := pathPrize π paths.1 + pathPrize π paths.2 - π u - π root

/-- The loop over the pairs of paths, dataset_app.py 146-158: `biggest_prize` and `biggest_vertex`. -/
def biggestPair (π : V → Int) (root : V) (m : List (V × (List V × List V))) : Int × Option V :=
  m.foldl (fun acc e => if pairPrize π root e.1 e.2 > acc.1 then (pairPrize π root e.1 e.2, some e.1) else acc) (0, none)

/-- Python's `max`; `none` is the `ValueError` for an empty sequence. -/
def pyMax : List Int → Option Int
  | [] => none
  | x :: xs => some (xs.foldl max x)

/-- The exceptions that the computation itself raises. -/
inductive StatsError where
  | zeroDivisionError | typeError | valueError
  deriving DecidableEq, Repr

/-- The entries of the dictionary, dataset_app.py 117-177. -/
structure DatasetStats where
  numNodes : Nat
  numEdges : Nat
  totalCost : Int
  totalPrize : Int
  biggestDisjointPrize : Int
  disjointPrizeRatio : Rat
  maxDisjointPathsCost : Int
  ppNumNodes : Nat
  ppNumEdges : Nat
  ppTotalCost : Int
  ppTotalPrize : Int
  ppPrizeRatio : Rat
  deriving DecidableEq, Repr

/-- `total_cost(costs, edges)` of tspwplib. -/
def costSum (w : V → V → Int) (edges : List (V × V)) : Int := (edges.map fun e => w e.1 e.2).sum

/-- `get_graph_stats`, dataset_app.py 113-178.  `names b` are the functions of tspwplib with the first argument `b`; called with `None` they raise `TypeError`.
The variable `biggest_vertex` is overwritten by the loop in lines 147-158 and then used as the biggest identifier in line 162. -/
def datasetStats [DecidableEq V] [LinearOrder W] (names : V → SplitNames V W) (A : DiGraph W) (source : W) (dij : DijkstraOut W) (depth : Nat)
    (components : NxGraph V → List (List V)) (U : NxGraph V) (edges : List (V × V)) (w : V → V → Int) (π : V → Int) (big root : V) :
    Res (Except StatsError DatasetStats) := do
  let (T, st) ← suurballe A dij depth source
  let m ← undirectedVertexDisjointPathsMap (names big) T st (treeNodes source dij)
  let biggest := biggestPair π root m
  let total := pathPrize π U.nodes
  if total = 0 then pure (.error .zeroDivisionError)
  else match biggest.2 with
    | none => pure (.error .typeError)
    | some b =>
      match pyMax ((vertexDisjointCostMap (names b) T st (treeNodes source dij)).map Prod.snd) with
      | none => pure (.error .valueError)
      | some c =>
        let h := removeOneConnected components U root
        let kept := edges.filter fun e => decide (e.1 ∈ h.nodes ∧ e.2 ∈ h.nodes)
        pure (.ok { numNodes := U.nodes.length, numEdges := edges.length, totalCost := costSum w edges, totalPrize := total,
                    biggestDisjointPrize := biggest.1, disjointPrizeRatio := biggest.1 / total, maxDisjointPathsCost := c,
                    ppNumNodes := h.nodes.length, ppNumEdges := kept.length, ppTotalCost := costSum w kept, ppTotalPrize := pathPrize π h.nodes,
                    ppPrizeRatio := pathPrize π h.nodes / total })

end Pctsp
