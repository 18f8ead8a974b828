import Verif.Model.Graph

/-!
# Specification vocabulary for walks and tours

Independent of the algorithms: adjacency, walks, simple closed tours, cost of a walk, prize of a tour.
-/

namespace Pctsp

/-- `u` and `v` are joined by some edge. -/
def Adj (g : Graph) (u v : Nat) : Prop := (u, v) ∈ g.edges ∨ (v, u) ∈ g.edges

instance (g : Graph) (u v : Nat) : Decidable (Adj g u v) := by unfold Adj; infer_instance

/-- The consecutive pairs of a list. -/
def consec {α : Type} (l : List α) : List (α × α) := l.zip l.tail

/-- Consecutive vertices are joined. -/
def IsWalk (g : Graph) (l : List Nat) : Prop := ∀ p ∈ consec l, Adj g p.1 p.2

instance (g : Graph) (l : List Nat) : Decidable (IsWalk g l) := by unfold IsWalk; infer_instance

/-- A simple closed tour from `r`: starts and ends at `r`, no other repetition, consecutive vertices joined.
(`[r, a, r]` is allowed: the code accepts it as an input tour.) -/
structure IsTour (g : Graph) (r : Nat) (t : List Nat) : Prop where
  shape : ∃ m, t = r :: (m ++ [r])
  nodup : t.dropLast.Nodup
  walk : IsWalk g t

/-- Cost of the (first inserted) edge that joins `u` and `v`. -/
def pairCost (g : Graph) (cost : Nat → Int) (u v : Nat) : Int :=
  match g.edges.findIdx? (fun e => decide (e = (u, v) ∨ e = (v, u))) with
  | some i => cost i
  | none => 0

/-- Sum of the costs of the consecutive pairs. -/
def walkCost (g : Graph) (cost : Nat → Int) (l : List Nat) : Int :=
  ((consec l).map fun p => pairCost g cost p.1 p.2).sum

/-- Sum of the prizes of a list of vertices. -/
def prizeSum (prize : Nat → Int) (l : List Nat) : Int := (l.map prize).sum

/-- Prize of a closed tour: its last vertex repeats the first one and is not counted. -/
def tourPrize (prize : Nat → Int) (t : List Nat) : Int := prizeSum prize t.dropLast

end Pctsp
