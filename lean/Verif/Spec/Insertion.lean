import Verif.Spec.Tour
import Verif.Model.Extension
import Mathlib.Data.List.ReduceOption

/-!
# Specification vocabulary for insertion heuristics
-/

namespace Pctsp

/-- `t'` is `t` with the new vertex `v` inserted between the consecutive vertices `a` and `b` that are both joined to `v`. -/
structure InsertsBetween (g : Graph) (v a b : Nat) (t t' : List Nat) : Prop where
  split : ∃ A B, t = A ++ a :: b :: B ∧ t' = A ++ a :: v :: b :: B
  new : v ∉ t
  vertex : v < g.n
  left : Adj g a v
  right : Adj g v b

/-- The same for some pair of consecutive vertices. -/
def GainStep (g : Graph) (v : Nat) (t t' : List Nat) : Prop := ∃ a b, InsertsBetween g v a b t t'

/-- A sequence of such insertions, each of which satisfies `P` (tour before the insertion, inserted vertex and its two
neighbours). -/
inductive GainSteps (g : Graph) (P : List Nat → Nat → Nat → Nat → Prop) : List Nat → List Nat → Prop
  | refl (t : List Nat) : GainSteps g P t t
  | step {t t1 t' : List Nat} {v a b : Nat} (hP : P t v a b) (h : InsertsBetween g v a b t t1) (hs : GainSteps g P t1 t') :
      GainSteps g P t t'

variable {F : Type}

/-- Prize of `v` divided by the extra cost of visiting `v` between `a` and `b`. -/
def gainBetween (O : FloatOps F) (g : Graph) (cost prize : Nat → Int) (v a b : Nat) : F :=
  O.div (O.ofInt (prize v)) (O.ofInt (pairCost g cost a v + pairCost g cost v b - pairCost g cost a b))

/-- `v` is a vertex outside the tour that could be inserted between the consecutive vertices `a` and `b`. -/
structure Insertable (g : Graph) (t : List Nat) (v a b : Nat) : Prop where
  pair : (a, b) ∈ consec t
  new : v ∉ t
  vertex : v < g.n
  left : Adj g a v
  right : Adj g v b

/-- Inserting `v` between `a` and `b` has positive gain, and no other possible insertion has a greater gain. -/
structure BestInsertion (O : FloatOps F) (g : Graph) (cost prize : Nat → Int) (t : List Nat) (v a b : Nat) : Prop where
  insertable : Insertable g t v a b
  positive : O.lt O.zero (gainBetween O g cost prize v a b) = true
  best : ∀ v' a' b', Insertable g t v' a' b' →
    O.lt (gainBetween O g cost prize v a b) (gainBetween O g cost prize v' a' b') = false

/-- The greatest gain of `v` over the tour edges, or zero if none is positive. -/
def maxGain (O : FloatOps F) (g : Graph) (cost prize : Nat → Int) (t : List Nat) (v : Nat) : F :=
  (consec t).foldl (fun m p =>
    if Adj g p.1 v ∧ Adj g v p.2 ∧ O.lt m (gainBetween O g cost prize v p.1 p.2) = true
    then gainBetween O g cost prize v p.1 p.2 else m) O.zero

/-- The average of these over the vertices outside the tour. -/
def averageGain (O : FloatOps F) (g : Graph) (cost prize : Nat → Int) (t : List Nat) : F :=
  let out := (List.range g.n).filter (fun v => decide (v ∉ t))
  O.div ((out.map (maxGain O g cost prize t)).foldl O.add O.zero) (O.ofInt out.length)

/-- Extra cost of visiting `v` between `a` and `b` divided by the prize of `v`. -/
def lossBetween (O : FloatOps F) (g : Graph) (cost prize : Nat → Int) (v a b : Nat) : F :=
  O.div (O.ofInt (pairCost g cost a v + pairCost g cost v b - pairCost g cost a b)) (O.ofInt (prize v))

/-- The least loss of a vertex with positive prize that can be inserted between the two vertices; `none` if there is no such vertex. -/
def LeastLossAt (O : FloatOps F) (g : Graph) (cost prize : Nat → Int) (t : List Nat) (p : Nat × Nat) : Option F → Prop
  | none => ∀ v, Insertable g t v p.1 p.2 → prize v ≤ 0
  | some x => ∃ v, Insertable g t v p.1 p.2 ∧ 0 < prize v ∧ x = lossBetween O g cost prize v p.1 p.2 ∧
      ∀ v', Insertable g t v' p.1 p.2 → 0 < prize v' → O.lt (lossBetween O g cost prize v' p.1 p.2) x = false

/-- Inserting `v` between `a` and `b` wins prize, and no other insertion that wins prize has a smaller loss. -/
structure LeastLoss (O : FloatOps F) (g : Graph) (cost prize : Nat → Int) (t : List Nat) (v a b : Nat) : Prop where
  insertable : Insertable g t v a b
  positive : 0 < prize v
  least : ∀ v' a' b', Insertable g t v' a' b' → 0 < prize v' →
    O.lt (lossBetween O g cost prize v' a' b') (lossBetween O g cost prize v a b) = false

/-- The mean of the values that are there. -/
def meanOf (O : FloatOps F) (os : List (Option F)) : F := O.div (os.reduceOption.foldl O.add O.zero) (O.ofInt os.reduceOption.length)

end Pctsp
