import Verif.Model.Enforce

/-!
# What the subtour handler answers when SCIP enforces a pseudo solution

SCIP enforces a pseudo solution (every variable at one of its bounds) in nodes whose LP relaxation it does not solve.
-/

namespace Pctsp

/-- `PCTSPconshdlrSubtour::scip_enfops`, subtour_elimination.cpp 189-199.  The pseudo solution is what `SCIPgetSolVal` reads for the solution
`NULL` while no LP relaxation has been solved. -/
def enforcePseudo (g : Graph) (order : List Nat) (pos : Nat → Bool) : Res Enfo := do
  if ← isSimpleCycle g (getSolutionEdges g order pos) then pure .feasible else pure .infeasible

end Pctsp
