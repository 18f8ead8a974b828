import Verif.Model.Res
import Mathlib.Order.Defs.LinearOrder

/-!
# Python: Suurballe's algorithm

Model of pctsp/suurballe/suurballe.py.  `NULL_VERTEX` is `none`, and vertices are never null.  Dictionaries are total functions: every key
that the code looks up is a vertex that can be reached from the source, for which all dictionaries are filled.  The heap is a list; `heappop`
removes its smallest pair in the lexicographic order.  Lists are changed in place while the code iterates over them, and the model does the
same: an iteration keeps a position and looks up the list again in every step.
-/

namespace Pctsp

variable {V : Type} [LinearOrder V]

/-- `sys.maxsize`. -/
def maxsize : Int := 9223372036854775807

/-- A directed graph of networkx: the nodes in order, the successors of every node in order, the attribute `weight` of every edge. -/
structure DiGraph (V : Type) where
  nodes : List V
  succ : V → List V
  weight : V → V → Int

/-- The result of `nx.single_source_dijkstra`: two dictionaries, with their keys in order. -/
structure DijkstraOut (V : Type) where
  distKeys : List V
  dist : V → Int
  pathKeys : List V
  path : V → List V

/-- Assignment to one key. -/
def setAt {β : Type} (f : V → β) (k : V) (b : β) : V → β := fun v => if v = k then b else f v

/-- `find_parents_in_shortest_path_tree`, suurballe.py 19-30. -/
def parentInTree (path : V → List V) (v : V) : Option V :=
  if (path v).length ≤ 1 then none else (path v)[(path v).length - 2]?

/-- The successors of `u` in the tree, suurballe.py 69-71: an edge is added for every vertex but the source, in the order of the dictionary
of the parents. -/
def treeSucc (source : V) (keys : List V) (path : V → List V) (u : V) : List V :=
  keys.filter fun v => decide (source ≠ v ∧ parentInTree path v = some u)

/-- `preorder_recursive`, suurballe.py 119-124, with the attributes `pre` and the list `order`.  `depth` is the number of nested calls
that the interpreter still allows. -/
def preorderRec (succ : V → List V) : Nat → V → (V → Int) × List V → Res ((V → Int) × List V)
  | 0, _, _ => .throw .recursionError
  | depth + 1, v, (pre, order) =>
    (succ v).foldl (fun st u => st >>= preorderRec succ depth u) (.ok (setAt pre v order.length, order ++ [v]))

/-- `preorder`, suurballe.py 100-116. -/
def preorder (succ : V → List V) (depth : Nat) (source : V) : Res ((V → Int) × List V) :=
  preorderRec succ depth source (fun _ => maxsize, [])

/-- `postorder_recursive`, suurballe.py 146-151. -/
def postorderRec (succ : V → List V) : Nat → V → (V → Int) × List V → Res ((V → Int) × List V)
  | 0, _, _ => .throw .recursionError
  | depth + 1, v, st =>
    ((succ v).foldl (fun st u => st >>= postorderRec succ depth u) (.ok st)) >>= fun (post, order) =>
      .ok (setAt post v order.length, order ++ [v])

/-- `postorder`, suurballe.py 127-143. -/
def postorder (succ : V → List V) (depth : Nat) (source : V) : Res ((V → Int) × List V) :=
  postorderRec succ depth source (fun _ => maxsize, [])

/-- `is_ancestor`, suurballe.py 528-546. -/
def isAncestor (pre post : V → Int) (ancestor descendant : V) : Bool :=
  decide (pre ancestor ≤ pre descendant) && decide (post ancestor ≥ post descendant)

/-- `adjust_edge_cost`, suurballe.py 154-167. -/
def adjustEdgeCost (originalCost distU distV : Int) : Int := distU - distV + originalCost

/-- The parts of `SuurballeTree` that are not changed by the main loop. -/
structure STree (V : Type) where
  source : V
  /-- successors in the tree -/
  succ : V → List V
  /-- predecessors in the tree: `list(T.predecessors(x))` -/
  predecessors : V → List V
  pre : V → Int
  post : V → Int
  /-- `transformed_cost` -/
  cost : V → V → Int
  /-- `distance_from_source` -/
  dist : V → Int

/-- The parts of `SuurballeTree` that the main loop changes. -/
structure SState (V : Type) where
  /-- `tentative_distance` -/
  tent : V → Int
  /-- `tentative_predecessor` -/
  pred : V → Option V
  /-- `process_cause` -/
  cause : V → Option V
  labeled : V → Bool
  heap : List (Int × V)
  /-- `edges_incident_to_vertex` -/
  inc : V → List (V × V)
  children : V → List V
  parent : V → Option V

/-- The place of a new edge in the list of edges incident with `spotlight`, suurballe.py 211-239: before the first edge whose other end has
a larger number than `shadow`, else at the end. -/
def insertIncident (pre : V → Int) (spotlight shadow : V) (e : V × V) : List (V × V) → List (V × V)
  | [] => [e]
  | d :: ds =>
    let other := if d.1 = spotlight then d.2 else d.1
    if pre other > pre shadow then e :: d :: ds else d :: insertIncident pre spotlight shadow e ds

/-- `add_edges_incident_to_endpoints`, suurballe.py 193-239: first the tail, then the head is in the spotlight. -/
def addIncident (pre : V → Int) (st : SState V) (tail head : V) : SState V :=
  let inc := setAt st.inc tail (insertIncident pre tail head (tail, head) (st.inc tail))
  { st with inc := setAt inc head (insertIncident pre head tail (tail, head) (inc head)) }

/-- `heappop`: the smallest pair. -/
def heapMin : List (Int × V) → Option (Int × V)
  | [] => none
  | x :: xs =>
    match heapMin xs with
    | none => some x
    | some y => if y.1 < x.1 ∨ (y.1 = x.1 ∧ y.2 < x.2) then some y else some x

/-- `process`, suurballe.py 329-343. -/
def process (T : STree V) (u w v : V) (st : SState V) : Res (SState V) :=
  if w ∈ T.succ u then .ok st
  else if (u, w) ∉ st.inc u then .throw .valueError
  else
    let inc := setAt st.inc u ((st.inc u).erase (u, w))
    if (u, w) ∉ inc w then .throw .valueError
    else
      let inc := setAt inc w ((inc w).erase (u, w))
      if st.tent v = maxsize then .throw .valueError
      else if st.tent v + T.cost u w < st.tent w then
        .ok { st with
          inc := inc
          tent := setAt st.tent w (st.tent v + T.cost u w)
          pred := setAt st.pred w (some u)
          cause := setAt st.cause w (some v)
          heap := (st.tent v + T.cost u w, w) :: st.heap }
      else .ok { st with inc := inc }

/-- `for u, w in T.edges_incident_to_vertex[x]: body`: position `i` of the list, which `body` may change. -/
def forIncident (x : V) (body : V × V → SState V → Res (SState V)) : Nat → Nat → SState V → Res (SState V)
  | 0, _, _ => .ub "fuel"
  | fuel + 1, i, st =>
    match (st.inc x)[i]? with
    | none => .ok st
    | some e => body e st >>= forIncident x body fuel (i + 1)

/-- The edge `(u, w)` incident with `x` is wasted: its other end is in the subtree of `y` as well, suurballe.py 381-389. -/
def wasted (T : STree V) (x y : V) (e : V × V) : Bool :=
  (decide (e.1 ≠ x) && isAncestor T.pre T.post y e.1) || (decide (e.2 ≠ x) && isAncestor T.pre T.post y e.2)

/-- The forward scan, suurballe.py 375-398; returns the state and both indices. -/
def scanForward (T : STree V) (x y v : V) : Nat → Int → Int → Int → SState V → Res (SState V × Int × Int)
  | 0, _, _, _, _ => .ub "fuel"
  | fuel + 1, size, f, b, st =>
    if f < (st.inc x).length then
      match (st.inc x)[f.toNat]? with
      | none => .throw .indexError
      | some e =>
        if wasted T x y e then .ok (st, f, b)
        else do
          let st ← process T e.1 e.2 v st
          if size > (st.inc x).length then scanForward T x y v fuel (st.inc x).length (f - 1 + 1) (b - 1) st
          else scanForward T x y v fuel size (f + 1) b st
    else .ok (st, f, b)

/-- The backward scan, suurballe.py 400-413. -/
def scanBackward (T : STree V) (x y v : V) : Nat → Int → Int → SState V → Res (SState V)
  | 0, _, _, _ => .ub "fuel"
  | fuel + 1, f, b, st =>
    if b > f then
      match (st.inc x)[b.toNat]? with
      | none => .throw .indexError
      | some e =>
        if wasted T x y e then .ok st
        else process T e.1 e.2 v st >>= scanBackward T x y v fuel f (b - 1)
    else .ok st

/-- `scan`, suurballe.py 362-413. -/
def scan (T : STree V) (x y v : V) (st : SState V) : Res (SState V) := do
  let n := (st.inc x).length
  let (st, f, b) ← scanForward T x y v (n + 1) n 0 (n - 1) st
  scanBackward T x y v (n + 1) f b st

/-- `scan_parent`, suurballe.py 416-438. -/
def scanParent (T : STree V) (x v : V) (st : SState V) : Res (SState V) :=
  forIncident x (fun e st =>
    if e.1 ≠ x ∧ isAncestor T.pre T.post v e.1 = true then process T e.1 e.2 v st
    else if e.2 ≠ x ∧ isAncestor T.pre T.post v e.2 = true then process T e.1 e.2 v st
    else .ok st) ((st.inc x).length + 1) 0 st

/-- `traverse_subtree`, suurballe.py 346-359. -/
def traverseSubtree (T : STree V) (y v : V) (isParent : Bool) : Nat → List V → SState V → Res (SState V)
  | 0, _, _ => .ub "fuel"
  | _ + 1, [], st => .ok st
  | fuel + 1, x :: queue, st => do
    let queue := queue ++ st.children x
    let st ← (if isParent then scanParent T x v st else scan T x y v st)
    traverseSubtree T y v isParent fuel queue st

/-- The loop over the children of `v`, suurballe.py 319-324. -/
def visitChildren (T : STree V) (n : Nat) (v : V) : List V → SState V → Res (SState V)
  | [], st => .ok st
  | w :: ws, st => do
    let st := { st with parent := setAt st.parent w none, children := setAt st.children v ((st.children v).erase w) }
    let st ← (if st.labeled w then .ok st else traverseSubtree T w v false n [w] st)
    visitChildren T n v ws st

/-- The body of the main loop for a vertex `v` that gets its label, suurballe.py 302-324.  `n` bounds the number of vertices of a subtree. -/
def labelVertex (T : STree V) (n : Nat) (v : V) (st : SState V) : Res (SState V) := do
  let st := { st with labeled := setAt st.labeled v true }
  let st ← forIncident v (fun e st => process T e.1 e.2 v st) ((st.inc v).length + 1) 0 st
  let st ← (match st.parent v with
    | none => .ok st
    | some p =>
      if st.labeled p then .ok st
      else traverseSubtree T p v true n [p] { st with children := setAt st.children p ((st.children p).erase v) })
  visitChildren T n v (st.children v) st

/-- The main loop, suurballe.py 299-324. -/
def suurballeLoop (T : STree V) (n : Nat) : Nat → SState V → Res (SState V)
  | 0, _ => .ub "fuel"
  | fuel + 1, st =>
    match heapMin st.heap with
    | none => .ok st
    | some x => do
      let st := { st with heap := st.heap.erase x }
      let st ← (if !st.labeled x.2 && decide (st.tent x.2 < maxsize) then labelVertex T n x.2 st else .ok st)
      suurballeLoop T n fuel st

/-- The edges of the subgraph of the vertices that were reached, in the order of networkx, suurballe.py 272, 289. -/
def reachedEdges (G : DiGraph V) (keys : List V) : List (V × V) :=
  (G.nodes.filter (· ∈ keys)).flatMap fun u => ((G.succ u).filter (· ∈ keys)).map fun v => (u, v)

/-- The tree, suurballe.py 274-284; `depth` is the number of nested calls that the interpreter allows. -/
def buildTree (G : DiGraph V) (dij : DijkstraOut V) (depth : Nat) (source : V) : Res (STree V) := do
  let succ := treeSucc source dij.pathKeys dij.path
  let (pre, _) ← preorder succ depth source
  let (post, _) ← postorder succ depth source
  .ok {
    source := source
    succ := succ
    predecessors := fun v => if source ≠ v then (parentInTree dij.path v).toList else []
    pre := pre
    post := post
    cost := fun u v => adjustEdgeCost (G.weight u v) (dij.dist u) (dij.dist v)
    dist := dij.dist }

/-- The state after the constructor, suurballe.py 73-83, with the fields that are assigned in 286-296. -/
def emptyState (dij : DijkstraOut V) (T : STree V) : SState V :=
  let tent := fun v => if v = T.source then 0 else maxsize
  { tent := tent
    pred := fun _ => none
    cause := fun _ => none
    labeled := fun _ => false
    heap := dij.distKeys.map fun v => (tent v, v)
    inc := fun _ => []
    children := T.succ
    parent := fun v => (T.predecessors v).head? }

/-- The state before the main loop: the edges that are not in the tree are added to the lists, suurballe.py 289-291. -/
def initState (G : DiGraph V) (dij : DijkstraOut V) (T : STree V) : SState V :=
  (reachedEdges G dij.distKeys).foldl (fun st e => if e.2 ∈ T.succ e.1 then st else addIncident T.pre st e.1 e.2) (emptyState dij T)

/-- `suurballe_shortest_vertex_disjoint_paths`, suurballe.py 242-326, after the call of `nx.single_source_dijkstra`. -/
def suurballe (G : DiGraph V) (dij : DijkstraOut V) (depth : Nat) (source : V) : Res (STree V × SState V) := do
  let T ← buildTree G dij depth source
  let st ← suurballeLoop T (dij.distKeys.length + 1) (dij.distKeys.length + (reachedEdges G dij.distKeys).length + 1) (initState G dij T)
  .ok (T, st)

/-- `edge_disjoint_path_cost`, suurballe.py 512-525. -/
def edgeDisjointPathCost (T : STree V) (st : SState V) (target : V) : Int :=
  if st.tent target = maxsize then maxsize else 2 * T.dist target + st.tent target

/-- The first loop of `extract_suurballe_edge_disjoint_paths`, suurballe.py 474-485: marks the causes. -/
def markCauses (source : V) (st : SState V) : Nat → V → List V → Res (List V)
  | 0, _, _ => .ub "fuel"
  | fuel + 1, x, mark =>
    if x = source then .ok mark
    else
      let mark := if x ∈ mark then mark else x :: mark
      match st.cause x with
      | none => .throw .valueError
      | some q => markCauses source st fuel (if x = q then source else q) mark

/-- One traversal, suurballe.py 487-507: the path is built from its end. -/
def traversePath (T : STree V) (source : V) (st : SState V) : Nat → V → List V → List V → Res (List V × List V)
  | 0, _, _, _ => .ub "fuel"
  | fuel + 1, x, mark, path =>
    if x = source then .ok (mark, path)
    else if x ∈ mark then
      match st.pred x with
      | none => .throw .valueError
      | some p => traversePath T source st fuel p (mark.erase x) (p :: path)
    else
      match (T.predecessors x).head? with
      | none => .throw .indexError
      | some y => traversePath T source st fuel y mark (y :: path)

/-- `extract_suurballe_edge_disjoint_paths`, suurballe.py 441-509. -/
def extractPaths (T : STree V) (st : SState V) (fuel : Nat) (source target : V) : Res (List V × List V) :=
  if source = target then .ok ([source], [])
  else if st.tent target = maxsize then .ok ([], [])
  else do
    let mark ← markCauses source st fuel target []
    let (mark, p1) ← traversePath T source st fuel target mark [target]
    let (_, p2) ← traversePath T source st fuel target mark [target]
    .ok (p1, p2)

end Pctsp
