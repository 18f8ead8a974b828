import Verif.Model.Maxflow
import Verif.Spec.Incidence
import Mathlib.Algebra.BigOperators.Group.Finset.Basic
import Mathlib.Algebra.BigOperators.Fin

/-!
# Specification vocabulary for flows: what the code expects of `boost::push_relabel_max_flow` and `boost::depth_first_visit`
-/

namespace Pctsp

/-- There is an edge from `u` to `v`. -/
def HasEdge (es : List (Nat × Nat)) (u v : Nat) : Prop := (u, v) ∈ es

/-- The search colours exactly the vertices that can be reached. -/
def VisitSpec (visit : Visit) : Prop :=
  ∀ es s v, visit es s v = true ↔ Relation.ReflTransGen (HasEdge es) s v

/-- The flow on the directed edge `j`: its capacity minus its residual capacity. -/
def flowOn (des : List ((Nat × Nat) × Int)) (a : FlowAnswer) (j : Nat) : Int := (des[j]?.map Prod.snd).getD 0 - a.residual j

/-- The net flow out of a vertex. -/
def netOut (des : List ((Nat × Nat) × Int)) (a : FlowAnswer) (v : Nat) : Int :=
  (((List.range des.length).filter fun j => decide (des[j]?.map (fun d => d.1.1) = some v)).map (flowOn des a)).sum

/-- A flow from `s` to `t`: residual capacities are not negative, the flow on the reverse edge is the opposite, it is conserved, and its
value arrives at the target. -/
structure IsFlow (des : List ((Nat × Nat) × Int)) (s t : Nat) (a : FlowAnswer) : Prop where
  nonneg : ∀ j < des.length, 0 ≤ a.residual j
  skew : ∀ j < des.length, flowOn des a (reverseOf j) = - flowOn des a j
  conserve : ∀ v, v ≠ s → v ≠ t → netOut des a v = 0
  value : a.value = - netOut des a t

/-- A maximum flow from `s` to `t`: there is no augmenting path. -/
structure IsMaxFlow (des : List ((Nat × Nat) × Int)) (s t : Nat) (a : FlowAnswer) : Prop extends IsFlow des s t a where
  noPath : ¬ Relation.ReflTransGen (HasEdge (positiveEdges des a.residual)) s t

/-- The flow function answers correctly on every network that the code builds. -/
def FlowSpec (flow : MaxFlow) : Prop :=
  ∀ ps cs des, capacityEdges ps cs = .ok des → (∀ c ∈ cs, 0 ≤ c) → ∀ s t, s ≠ t → IsMaxFlow des s t (flow des s t)

/-- The capacity of the edges that enter the set `S`. -/
def cutCapacity (des : List ((Nat × Nat) × Int)) (S : Nat → Bool) : Int :=
  ((des.filter fun d => !S d.1.1 && S d.1.2).map Prod.snd).sum

end Pctsp
