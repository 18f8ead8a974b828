import Verif.Model.Suurballe

/-!
# Python: from the split graph back to the undirected graph

Model of `undirected_vertex_disjoint_paths_map` and `vertex_disjoint_cost_map`, pctsp/preprocessing/preprocessing.py 37-86.  The functions of
tspwplib that translate the names of the split vertices are parameters; Spec/Split.lean says what is expected of them.
-/

namespace Pctsp

variable {V W : Type}

/-- The functions `is_vertex_split_tail`, `get_original_from_split_vertex` and `get_original_path_from_split_path` of tspwplib, with
`biggest_vertex_id` as their first argument. -/
structure SplitNames (V W : Type) where
  isTail : W → Bool
  original : W → V
  path : List W → List V

/-- `d[k] = x` for a dictionary in insertion order: an old key keeps its place. -/
def dictSet [DecidableEq V] {β : Type} (d : List (V × β)) (k : V) (x : β) : List (V × β) :=
  if d.any fun e => decide (e.1 = k) then d.map fun e => if e.1 = k then (k, x) else e else d ++ [(k, x)]

/-- `d.get(k)`. -/
def dictGet [DecidableEq V] {β : Type} (d : List (V × β)) (k : V) : Option β := (d.find? fun e => decide (e.1 = k)).map Prod.snd

/-- `add_node`: a node that is present already keeps its place. -/
def addNode [DecidableEq W] (nodes : List W) (v : W) : List W := if v ∈ nodes then nodes else nodes ++ [v]

/-- The ends of the edge from the parent of `v`, suurballe.py 69-71.  Every vertex but the source has a parent. -/
def addEnds [LinearOrder W] (source : W) (path : W → List W) (nodes : List W) (v : W) : List W :=
  if source ≠ v then
    match parentInTree path v with
    | none => nodes
    | some p => addNode (addNode nodes p) v
  else nodes

/-- The nodes of the tree in the order of networkx, suurballe.py 69-74: the ends of the edges, then the vertices of the dictionary of distances. -/
def treeNodes [LinearOrder W] (source : W) (dij : DijkstraOut W) : List W :=
  dij.distKeys.foldl addNode (dij.pathKeys.foldl (addEnds source dij.path) [])

/-- `vertex_disjoint_cost_map`, preprocessing.py 68-86; `nodes` is the iteration over the tree. -/
def vertexDisjointCostMap [DecidableEq V] [LinearOrder W] (names : SplitNames V W) (T : STree W) (st : SState W) (nodes : List W) : List (V × Int) :=
  nodes.foldl (fun m vertex =>
    if names.isTail vertex && st.labeled vertex then dictSet m (names.original vertex) (edgeDisjointPathCost T st vertex) else m) []

/-- The loop of `undirected_vertex_disjoint_paths_map`, preprocessing.py 51-64. -/
def pathsMapLoop [DecidableEq V] [LinearOrder W] (names : SplitNames V W) (T : STree W) (st : SState W) (fuel : Nat) :
    List W → List (V × (List V × List V)) → Res (List (V × (List V × List V)))
  | [], m => .ok m
  | vertex :: rest, m =>
    if names.isTail vertex && st.labeled vertex then do
      let (first, second) ← extractPaths T st fuel T.source vertex
      pathsMapLoop names T st fuel rest (dictSet m (names.original vertex) (names.path first, names.path second))
    else pathsMapLoop names T st fuel rest m

/-- `undirected_vertex_disjoint_paths_map`, preprocessing.py 37-65. -/
def undirectedVertexDisjointPathsMap [DecidableEq V] [LinearOrder W] (names : SplitNames V W) (T : STree W) (st : SState W) (nodes : List W) :
    Res (List (V × (List V × List V))) :=
  pathsMapLoop names T st ((nodes.length + 1) * (nodes.length + 1)) nodes []

end Pctsp
