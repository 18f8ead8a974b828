import Verif.Model.Dataset
import Verif.Spec.DisjointPaths
import Verif.Spec.Split

/-!
# What the statistics of an instance should be
-/

namespace Pctsp

variable {V W : Type}

/-- The names of tspwplib for vertices that are numbers: with the biggest number `b` the tails are the numbers up to `b`, and a tail is the vertex itself.  The
names for `big` are those with which the graph was split. -/
structure IdNames [LinearOrder V] (names : V → SplitNames V W) (tail : V → W) (big : V) : Prop where
  isTail : ∀ b ≤ big, ∀ x, (names b).isTail x = true ↔ ∃ v ≤ b, x = tail v
  original : ∀ b ≤ big, ∀ v ≤ b, (names b).original (tail v) = v
  biggest : ∀ v, v ≤ big

/-- How the statistics value the pair of paths of a vertex: for a vertex other than the root the pair closes to a tour through the root and the vertex, and the value
is the prize of its vertices; for the root the pair is two closed walks, and the value is the prize of their vertices with the root counted twice. -/
def PairValue (U : NxGraph V) (π : V → Int) (r v : V) (pq : List V × List V) (x : Int) : Prop :=
  (v ≠ r ∧ ∃ vs, ClosesTo pq (r :: (vs ++ [r])) ∧ NxCycle U (r :: vs) ∧ v ∈ vs ∧ x = ((r :: vs).map π).sum) ∨
  (v = r ∧ ∃ a b, pq = (r :: (a ++ [r]), r :: (b ++ [r])) ∧ (r :: (a ++ b)).Nodup ∧ (∀ u ∈ r :: (a ++ b), u ∈ U.nodes) ∧
    x = π r + ((r :: (a ++ b)).map π).sum)

end Pctsp
