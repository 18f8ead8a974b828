import Verif.Model.Res

/-!
# Graphs

Model of `PCTSPgraph` (include/pctsp/graph.hh 22-28): a boost `adjacency_list<listS, vecS, undirectedS>`, and of the
generic graph functions of include/pctsp/graph.hh.
-/

namespace Pctsp

/-- `PCTSPgraph`, graph.hh 22-28.  Vertices are `0..n-1`; `edges` are in insertion order.  The edge descriptor of an
edge is its position in `edges`, so parallel edges differ.  Property maps (cost, prize) are passed separately, as
in the code. -/
structure Graph where
  n : Nat
  edges : List (Nat × Nat)
  deriving DecidableEq, Repr

/-- Does the edge `e` join `u` and `v` (in any direction)? -/
def joins (u v : Nat) (e : Nat × Nat) : Bool :=
  (e.1 == u && e.2 == v) || (e.1 == v && e.2 == u)

namespace Graph

/-- Every end point is a vertex.  `boost::add_edge` on a `vecS` graph guarantees it (it grows the vertex vector). -/
def WF (g : Graph) : Prop := ∀ e ∈ g.edges, e.1 < g.n ∧ e.2 < g.n

instance (g : Graph) : Decidable g.WF := by unfold WF; infer_instance

/-- The descriptor of the first inserted edge between `u` and `v`. -/
def edgeIdx (g : Graph) (u v : Nat) : Option Nat := g.edges.findIdx? (joins u v)

/-- `boost::edge(u, v, g)`: searches the out-edge list of `u` in insertion order.  Indexing the vertex vector with a
`u` that is not a vertex is undefined. -/
def edge (g : Graph) (u v : Nat) : Res (Option Nat) :=
  if u < g.n then .ok (g.edgeIdx u v) else .ub "boost::edge: not a vertex"

/-- The neighbours contributed by one edge to the adjacency list of `u`: a self-loop contributes `u` twice. -/
def nbrsOf (u : Nat) (e : Nat × Nat) : List Nat :=
  (if e.1 = u then [e.2] else []) ++ (if e.2 = u then [e.1] else [])

/-- `boost::adjacent_vertices(u, g)` for a vertex `u`, in insertion order. -/
def adjacent (g : Graph) (u : Nat) : List Nat := g.edges.flatMap (nbrsOf u)

/-- `boost::adjacent_vertices(u, g)` with the range check on `u`. -/
def adjacentVertices (g : Graph) (u : Nat) : Res (List Nat) :=
  if u < g.n then .ok (g.adjacent u) else .ub "boost::adjacent_vertices: not a vertex"

/-- `boost::add_edge(u, v, g)` on a `vecS` graph: grows the vertex vector if needed, appends the edge. -/
def addEdge (g : Graph) (u v : Nat) : Graph :=
  { n := max g.n (max u v + 1), edges := g.edges ++ [(u, v)] }

/-- `addEdgesToGraph`, graph.hh 54-71. -/
def addEdges (g : Graph) (pairs : List (Nat × Nat)) : Graph :=
  pairs.foldl (fun g e => g.addEdge e.1 e.2) g

end Graph

/-- `getSubpathOfCycle`, graph.hh 300-307: the loop that copies `m` vertices starting at position `pos`; reaching the end
iterator it continues at position 1. -/
def subpathLoop {α : Type} (cycle : List α) : Nat → Nat → Res (List α)
  | 0, _ => .ok []
  | m + 1, pos =>
    let pos := if pos = cycle.length then 1 else pos
    match cycle[pos]? with
    | none => .ub "getSubpathOfCycle: iterator out of range"
    | some v => do
      let rest ← subpathLoop cycle m (pos + 1)
      pure (v :: rest)

/-- `getSubpathOfCycle`, graph.hh 282-309 (non-negative positions).  `std::vector` throws for a negative length. -/
def getSubpathOfCycle {α : Type} (cycle : List α) (start stop : Nat) : Res (List α) :=
  let len1 : Int := (stop : Int) - start + 1
  let len : Int := if len1 ≤ 0 then (cycle.length : Int) - start + stop else len1
  if len < 0 then .throw .lengthError
  else if start > cycle.length then .ub "getSubpathOfCycle: advance past the end"
  else subpathLoop cycle len.toNat start

/-- Assignment to an entry of a table (`std::vector`) seen as a function. -/
def upd {β : Type} (f : Nat → β) (i : Nat) (b : β) : Nat → β := fun j => if j = i then b else f j

mutual
/-- `depthFirstSearch`, graph.hh 318-335; the recursion is on the depth limit (a limit `≤ 0` does not look at
neighbours).  The tables `marked` and `parent` are returned. -/
def dfs (g : Graph) (source : Nat) (d : Nat) (st : (Nat → Bool) × (Nat → Nat)) : (Nat → Bool) × (Nat → Nat) :=
  let st := (upd st.1 source true, st.2)
  match d with
  | 0 => st
  | d + 1 => dfsList g source d (g.adjacent source) st
termination_by (d, 0)
/-- The loop over the neighbours, graph.hh 328-333. -/
def dfsList (g : Graph) (source : Nat) (d : Nat) (nbrs : List Nat)
    (st : (Nat → Bool) × (Nat → Nat)) : (Nat → Bool) × (Nat → Nat) :=
  match nbrs with
  | [] => st
  | v :: rest =>
    if st.1 v then dfsList g source d rest st
    else dfsList g source d rest (dfs g v d (st.1, upd st.2 v source))
termination_by (d, nbrs.length + 1)
end

/-- State of `breadthFirstSearch`: tables, queue and the number of vertices discovered on the next level. -/
structure BfsState where
  marked : Nat → Bool
  parent : Nat → Nat
  queue : List Nat
  next : Nat

/-- The loop over the neighbours of `u`, graph.hh 355-362. -/
def bfsVisit (u : Nat) : List Nat → BfsState → BfsState
  | [], st => st
  | v :: vs, st =>
    if st.marked v then bfsVisit u vs st
    else bfsVisit u vs
      { marked := upd st.marked v true, parent := upd st.parent v u, queue := st.queue ++ [v], next := st.next + 1 }

/-- The while loop of `breadthFirstSearch`, graph.hh 351-368; `lvl` is `this_level_counter`, `depth` the level.  `this_level_counter` is an `int` that is decremented before the comparison with 0. -/
def bfsLoop (g : Graph) (limit : Int) : Nat → Int → Int → BfsState → Res BfsState
  | 0, _, _, _ => .ub "breadthFirstSearch: out of fuel"
  | fuel + 1, lvl, depth, st =>
    match st.queue with
    | [] => .ok st
    | u :: q =>
      if depth < limit then
        let lvl := lvl - 1
        let st := bfsVisit u (g.adjacent u) { st with queue := q }
        if lvl = 0 then bfsLoop g limit fuel st.next (depth + 1) { st with next := 0 }
        else bfsLoop g limit fuel lvl depth st
      else .ok st

/-- `breadthFirstSearch`, graph.hh 337-369.  Every vertex enters the queue at most once, so `n + 2` rounds of fuel are
enough (see `bfs_ok`). -/
def breadthFirstSearch (g : Graph) (source : Nat) (marked : Nat → Bool) (parent : Nat → Nat) (limit : Int) :
    Res ((Nat → Bool) × (Nat → Nat)) :=
  if source < g.n then do
    let st ← bfsLoop g limit (g.n + 2) 1 0
      { marked := upd marked source true, parent := upd parent source source, queue := [source], next := 0 }
    pure (st.marked, st.parent)
  else .ub "breadthFirstSearch: not a vertex"

/-- The while loop of `pathInTreeFromParents`, graph.hh 381-386; `fuel` is `parent_lookup.size() + 1 - i`. -/
def climb (parent : Nat → Nat) : Nat → Nat → List Nat → List Nat
  | 0, _, path => path
  | fuel + 1, child, path =>
    if parent child = child then path else climb parent fuel (parent child) (parent child :: path)

/-- `pathInTreeFromParents`, graph.hh 371-388, for a table with `size` entries.  (The loop runs while `i <= size`.)
The parameter `source` of the code is never used. -/
def pathInTreeFromParents (parent : Nat → Nat) (size target : Nat) : List Nat :=
  climb parent (size + 1) target [target]

end Pctsp
