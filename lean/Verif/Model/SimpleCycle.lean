import Verif.Model.GraphUtil

/-!
# The simple cycle test

`isSimpleCycle` and `isGraphSimpleCycle`, src/separation.cpp 13-75.
-/

namespace Pctsp

/-- The loop that builds the adjacency lists, separation.cpp 31-53; `none` is the early `return false`.  A vertex that is not
a key of the map has the empty list. -/
def cycleAdjLoop : List (Nat × Nat) → (Nat → List Nat) → Option (Nat → List Nat)
  | [], adj => some adj
  | (s, t) :: es, adj =>
    if s = t then none
    else
      let adj := upd adj s (adj s ++ [t])
      let adj := upd adj t (adj t ++ [s])
      if (adj s).length > 2 || (adj t).length > 2 then none else cycleAdjLoop es adj

/-- The walk along the adjacency lists, separation.cpp 60-73; the first argument is `edge_vector.size() - i`, the result is
the final `i`, `none` is the early `return false`. -/
def cycleWalkLoop (adj : Nat → List Nat) (source : Nat) : Nat → Nat → Nat → Nat → Option Nat
  | 0, _, _, i => some i
  | fuel + 1, prev, current, i =>
    if current = source then some i
    else
      match adj current with
      | [a, b] => cycleWalkLoop adj source fuel current (if a = prev then b else a) (i + 1)
      | _ => none

/-- `isSimpleCycle` on the end points of the edges, separation.cpp 27-75. -/
def isSimpleCyclePairs (ps : List (Nat × Nat)) : Bool :=
  match ps with
  | [] => false
  | (s, t) :: _ =>
    match cycleAdjLoop ps (fun _ => []) with
    | none => false
    | some adj =>
      match cycleWalkLoop adj s ps.length s t 0 with
      | none => false
      | some i => decide (i = ps.length - 1)

/-- `isSimpleCycle`, separation.cpp 27-75. -/
def isSimpleCycle (g : Graph) (es : List Nat) : Res Bool := do
  let ps ← mapRes g.ends es
  pure (isSimpleCyclePairs ps)

end Pctsp
