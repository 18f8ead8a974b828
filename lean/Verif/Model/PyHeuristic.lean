import Verif.Model.Preprocess

/-!
# Python: heuristics that find a first tour

Model of pctsp/algorithms/heuristic.py.  `total_prize_of_tour` (tspwplib) is the parameter `prizeOf`.  A dictionary is a list of pairs in
insertion order.  `random.choice` is driven by a sequence of numbers `rnd`, of which the theorems assume nothing.
-/

namespace Pctsp

variable {V : Type} [DecidableEq V]

/-- `tour_from_vertex_disjoint_paths`, heuristic.py 17-51. -/
def tourFromPaths (paths : List V × List V) : Res (List V) :=
  let firstPath := paths.1
  let secondPath := paths.2
  if firstPath.length ≤ 1 then .throw .valueError
  else if secondPath.length ≤ 1 then .throw .valueError
  else if firstPath.head? ≠ secondPath.head? then .throw .valueError
  else if firstPath.getLast? ≠ secondPath.getLast? then .throw .valueError
  else .ok (firstPath ++ (secondPath.reverse.drop 1))

/-- `len(set(tour))`: the number of different vertices. -/
def countDistinct : List V → Nat
  | [] => 0
  | v :: vs => if v ∈ vs then countDistinct vs else countDistinct vs + 1

/-- The loop of `suurballes_heuristic`, heuristic.py 115-128; the state is `least_cost` and `best_tour`. -/
def suurballesLoop (prizeOf : List V → Int) (quota : Int) (costMap : V → Option Int) :
    List (V × (List V × List V)) → Int → List V → Res (List V)
  | [], _, bestTour => .ok bestTour
  | (vertex, paths) :: rest, leastCost, bestTour => do
    let tour ← tourFromPaths paths
    match costMap vertex with
    | none => .throw .keyError
    | some costOfTour =>
      if costOfTour < leastCost ∧ quota ≤ prizeOf tour ∧ countDistinct tour = tour.length - 1 then
        suurballesLoop prizeOf quota costMap rest costOfTour tour
      else suurballesLoop prizeOf quota costMap rest leastCost bestTour

/-- `suurballes_heuristic`, heuristic.py 97-128; `maxsize` is `sys.maxsize`. -/
def suurballesHeuristic (maxsize : Int) (prizeOf : List V → Int) (quota : Int) (costMap : V → Option Int)
    (pathsMap : List (V × (List V × List V))) : Res (List V) :=
  suurballesLoop prizeOf quota costMap pathsMap maxsize []

/-- The second loop of `suurballes_tour_initialization`, heuristic.py 86-93; the state is `biggest_prize` and `biggest_tour`. -/
def biggestTourLoop (prizeOf : List V → Int) : List (V × (List V × List V)) → Int → List V → Res (List V)
  | [], _, biggestTour => .ok biggestTour
  | (_, paths) :: rest, biggestPrize, biggestTour => do
    let tour ← tourFromPaths paths
    if biggestPrize < prizeOf tour then biggestTourLoop prizeOf rest (prizeOf tour) tour
    else biggestTourLoop prizeOf rest biggestPrize biggestTour

/-- `suurballes_tour_initialization`, heuristic.py 54-94. -/
def suurballesInit (maxsize : Int) (prizeOf : List V → Int) (quota : Int) (costMap : V → Option Int)
    (pathsMap : List (V × (List V × List V))) : Res (List V) := do
  let tour ← suurballesHeuristic maxsize prizeOf quota costMap pathsMap
  if tour ≠ [] then .ok tour else biggestTourLoop prizeOf pathsMap 0 []

/-- `random.choice(l)`: the element at a random position; an empty list raises `IndexError`. -/
def randomChoice (r : Nat) (l : List V) : Res V :=
  match l[r % l.length]? with
  | some v => .ok v
  | none => .throw .indexError

/-- The while loop of `random_tour_complete_graph`, heuristic.py 151-156; `left` is `vertices_not_in_tour`, `k` counts the calls of
`random.choice`.  Each round removes a vertex from `left`, so `left.length + 1` rounds are enough. -/
def randomTourLoop (rnd : Nat → Nat) (prize : V → Option Int) (quota : Int) : Nat → Nat → List V → Int → List V → Res (List V)
  | 0, _, _, _, _ => .ub "random_tour_complete_graph: out of fuel"
  | fuel + 1, k, tour, sum, left =>
    if 0 < left.length ∧ (sum < quota ∨ tour.length < 3) then do
      let vertex ← randomChoice (rnd k) left
      match prize vertex with
      | none => .throw .keyError
      | some p => randomTourLoop rnd prize quota fuel (k + 1) (tour ++ [vertex]) (sum + p) (left.erase vertex)
    else .ok tour

/-- `random_tour_complete_graph`, heuristic.py 131-160.  The prize of the root is looked up first; `list.remove` raises `ValueError`. -/
def randomTourComplete (rnd : Nat → Nat) (prize : V → Option Int) (nodes : List V) (root : V) (quota : Int) : Res (List V) :=
  match prize root with
  | none => .throw .keyError
  | some p =>
    if root ∈ nodes then do
      let tour ← randomTourLoop rnd prize quota ((nodes.erase root).length + 1) 0 [root] p (nodes.erase root)
      pure (tour ++ [root])
    else .throw .valueError

/-- The loop of `random_tour_from_disjoint_paths_map`, heuristic.py 192-199: the paths of `vertex` are looked at, then the vertex is removed
from the choices and the next one is drawn.  (The condition `len(vertex_choices) >= 0` always holds.) -/
def randomDisjointLoop (rnd : Nat → Nat) (pathsOf : V → List V × List V) : Nat → Nat → V → List V → Res V
  | 0, _, _, _ => .ub "random_tour_from_disjoint_paths_map: out of fuel"
  | fuel + 1, k, vertex, choices =>
    let keepRepeating := decide ((pathsOf vertex).1.length + (pathsOf vertex).2.length < 5)
    let choices := choices.erase vertex
    do
      let next ← randomChoice (rnd k) choices
      if keepRepeating then randomDisjointLoop rnd pathsOf fuel (k + 1) next choices else .ok next

/-- `random_tour_from_disjoint_paths_map`, heuristic.py 163-200; the dictionary has the keys `keys` and the values `pathsOf`. -/
def randomTourDisjoint (rnd : Nat → Nat) (keys : List V) (pathsOf : V → List V × List V) (root : V) : Res (List V) :=
  let choices := if root ∈ keys then keys.erase root else keys
  if choices.length = 0 then .throw .valueError
  else do
    let vertex ← randomChoice (rnd 0) choices
    let result ← randomDisjointLoop rnd pathsOf choices.length 1 vertex choices
    tourFromPaths (pathsOf result)

/-! ## A cycle from a breadth first search -/

/-- `tree.successors(v)` and `tree.predecessors(v)` for a tree given by its edges (parent, child) in the order of insertion. -/
def treeSuccessors (tree : List (V × V)) (v : V) : List V := (tree.filter (·.1 = v)).map Prod.snd
/-- See `treeSuccessors`. -/
def treePredecessors (tree : List (V × V)) (v : V) : List V := (tree.filter (·.2 = v)).map Prod.fst

/-- The while loop of `path_to_vertex_in_tree`, heuristic.py 259-261: climbs while there is exactly one predecessor.  The first argument is fuel. -/
def climbTree (tree : List (V × V)) : Nat → V → List V → Res (List V)
  | 0, _, _ => .ub "path_to_vertex_in_tree: out of fuel"
  | fuel + 1, current, path =>
    match treePredecessors tree current with
    | [p] => climbTree tree fuel p (current :: path)
    | _ => .ok (current :: path)

/-- `path_to_vertex_in_tree`, heuristic.py 255-263. -/
def pathToVertexInTree (tree : List (V × V)) (target : V) : Res (List V) := climbTree tree (tree.length + 1) target []

/-- The inner loop of `find_cycle_from_bfs`, heuristic.py 234-251: the first neighbour with another colour closes the cycle.  `none` if there is
no such neighbour. -/
def findOtherColour (tree : List (V × V)) (colour : V → Option Nat) (c : Nat) (vertex : V) : List V → Res (Option (List V))
  | [] => .ok none
  | neighbor :: rest =>
    match colour neighbor with
    | none => .throw .keyError
    | some c' =>
      if c' ≠ c then do
        let toVertex ← pathToVertexInTree tree vertex
        let toNeighbor ← pathToVertexInTree tree neighbor
        pure (some (toVertex ++ toNeighbor.reverse))
      else findOtherColour tree colour c vertex rest

/-- Assignment of one value to some keys of a dictionary. -/
def setColours (colour : V → Option Nat) (vs : List V) (c : Nat) : V → Option Nat := fun v => if v ∈ vs then some c else colour v

/-- The outer loop of `find_cycle_from_bfs`, heuristic.py 223-251.  `setOrder` is the order in which Python iterates over a set. -/
def bfsCycleLoop (setOrder : List V → List V) (g : NxGraph V) (tree : List (V × V)) : Nat → List V → (V → Option Nat) → Res (List V)
  | 0, _, _ => .ub "find_cycle_from_bfs: out of fuel"
  | _ + 1, [], _ => .ok []
  | fuel + 1, vertex :: queue, colour =>
    match colour vertex, treePredecessors tree vertex with
    | none, _ => .throw .keyError
    | some _, [] => .throw .indexError
    | some c, parent :: _ => do
      let children := treeSuccessors tree vertex
      let colour := setColours colour children c
      let found ← findOtherColour tree colour c vertex (setOrder ((g.adj vertex).filter fun u => u ∉ parent :: children))
      match found with
      | some cycle => .ok cycle
      | none => bfsCycleLoop setOrder g tree fuel (queue ++ children) colour

/-- The colours of the successors of the root: 0, 1, ..., heuristic.py 215-221. -/
def rootColours (succs : List V) : V → Option Nat := fun v => succs.idxOf? v

/-- `find_cycle_from_bfs`, heuristic.py 203-252; `tree` are the edges of `nx.bfs_tree(G, root_vertex)`. -/
def findCycleFromBfs (setOrder : List V → List V) (g : NxGraph V) (tree : List (V × V)) (root : V) : Res (List V) :=
  let succs := treeSuccessors tree root
  bfsCycleLoop setOrder g tree (tree.length + 1) succs (rootColours succs)

end Pctsp
