import Verif.Model.Walk

/-!
# Renaming vertices

Model of include/pctsp/renaming.hh.  New vertices are natural numbers, old vertices are of any type.
-/

namespace Pctsp

variable {α : Type} [DecidableEq α]

/-- `boost::bimap<NewVertex, OldVertex>`: pairs of a new and an old vertex. -/
abbrev Bimap (α : Type) := List (Nat × α)

/-- `vertex_bimap.insert(position(new, old))`: like every insertion into a set-like container, nothing happens if one of the two
keys is present. -/
def Bimap.insert (b : Bimap α) (new : Nat) (old : α) : Bimap α :=
  if (b.any fun p => decide (p.1 = new)) || (b.any fun p => decide (p.2 = old)) then b else b ++ [(new, old)]

/-- `findOrInsertVertex`, renaming.hh 7-25: returns the id, the lookup and the next id. -/
def findOrInsertVertex (b : Bimap α) (old : α) (next : Nat) : Nat × Bimap α × Nat :=
  match b.find? fun p => decide (p.2 = old) with
  | none => (next, b.insert next old, next + 1)
  | some p => (p.1, b, next)

/-- The loop of `renameVertices`, renaming.hh 33-36. -/
def renameVerticesLoop : List α → Bimap α → Nat → Bimap α
  | [], b, _ => b
  | x :: xs, b, next =>
    let (_, b, next) := findOrInsertVertex b x next
    renameVerticesLoop xs b next

/-- `renameVertices`, renaming.hh 27-37. -/
def renameVertices (b : Bimap α) (vs : List α) : Bimap α := renameVerticesLoop vs b 0

/-- The loop of `renameEdges`, renaming.hh 47-56. -/
def renameEdgesLoop : List (α × α) → Bimap α → Nat → List (Nat × Nat) × Bimap α
  | [], b, _ => ([], b)
  | e :: es, b, next =>
    let (s, b, next) := findOrInsertVertex b e.1 next
    let (t, b, next) := findOrInsertVertex b e.2 next
    let (rest, b) := renameEdgesLoop es b next
    ((s, t) :: rest, b)

/-- `renameEdges`, renaming.hh 39-58. -/
def renameEdges (b : Bimap α) (es : List (α × α)) : List (Nat × Nat) × Bimap α := renameEdgesLoop es b 0

/-- `getOldVertex`, renaming.hh 60-64; dereferences the end iterator if the id is unknown. -/
def getOldVertex (b : Bimap α) (new : Nat) : Res α :=
  match b.find? fun p => decide (p.1 = new) with
  | none => .ub "getOldVertex: end iterator"
  | some p => .ok p.2

/-- `getNewVertex`, renaming.hh 66-70; dereferences the end iterator if the vertex is unknown. -/
def getNewVertex (b : Bimap α) (old : α) : Res Nat :=
  match b.find? fun p => decide (p.2 = old) with
  | none => .ub "getNewVertex: end iterator"
  | some p => .ok p.1

/-- `getOldEdge`, renaming.hh 72-81. -/
def getOldEdge (b : Bimap α) (e : Nat × Nat) : Res (α × α) := do
  let x ← getOldVertex b e.1
  let y ← getOldVertex b e.2
  pure (x, y)

/-- `getNewEdge`, renaming.hh 83-92. -/
def getNewEdge (b : Bimap α) (e : α × α) : Res (Nat × Nat) := do
  let x ← getNewVertex b e.1
  let y ← getNewVertex b e.2
  pure (x, y)

/-- `getOldVertices`, renaming.hh 94-105; the copying loops of 100-103, 113-116, 126-129 and 139-142 are `mapRes`. -/
def getOldVertices (b : Bimap α) (vs : List Nat) : Res (List α) := mapRes (getOldVertex b) vs

/-- `getNewVertices`, renaming.hh 107-118. -/
def getNewVertices (b : Bimap α) (vs : List α) : Res (List Nat) := mapRes (getNewVertex b) vs

/-- `getOldEdges`, renaming.hh 120-131. -/
def getOldEdges (b : Bimap α) (es : List (Nat × Nat)) : Res (List (α × α)) := mapRes (getOldEdge b) es

/-- `getNewEdges`, renaming.hh 133-144. -/
def getNewEdges (b : Bimap α) (es : List (α × α)) : Res (List (Nat × Nat)) := mapRes (getNewEdge b) es

/-- `PCTSPgraph graph; addEdgesToGraph(graph, new_edges)`, pypctsp.cpp 142-145 (and the same lines of the other bindings). -/
def graphOf (ne : List (Nat × Nat)) : Graph := ({ n := 0, edges := [] } : Graph).addEdges ne

/-- `fillCostMapFromRenamedMap`, renaming.hh 146-162; the entries of the `std::map` in any order, the cost map as a function of the
edge descriptor. -/
def fillCostMap (g : Graph) (b : Bimap α) : List ((α × α) × Int) → (Nat → Int) → Res (Nat → Int)
  | [], f => .ok f
  | (p, c) :: rest, f => do
    let s ← getNewVertex b p.1
    let t ← getNewVertex b p.2
    let e ← g.edge s t
    match e with
    | none => .throw (.edgeNotFound s t)
    | some i => fillCostMap g b rest (upd f i c)

/-- `fillRenamedVertexMap`, renaming.hh 164-175. -/
def fillVertexMap (b : Bimap α) : List (α × Int) → (Nat → Int) → Res (Nat → Int)
  | [], f => .ok f
  | (x, c) :: rest, f => do
    let v ← getNewVertex b x
    fillVertexMap b rest (upd f v c)

end Pctsp
