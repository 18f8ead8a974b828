import Verif.Spec.Insertion
import Verif.Spec.Cycle

/-!
# Specification vocabulary for the direction of a tour
-/

namespace Pctsp

variable {F : Type}

/-- No vertex has the same positive gain at two different edges it could be inserted into: of two positive gains at different
edges (as unordered pairs) one is smaller. -/
def NoTies (O : FloatOps F) (g : Graph) (cost prize : Nat → Int) : Prop :=
  ∀ v a b c d, Adj g a b → Adj g a v → Adj g v b → Adj g c d → Adj g c v → Adj g v d →
    ¬ (a = c ∧ b = d) → ¬ (a = d ∧ b = c) →
    O.lt O.zero (gainBetween O g cost prize v a b) = true → O.lt O.zero (gainBetween O g cost prize v c d) = true →
    O.lt (gainBetween O g cost prize v a b) (gainBetween O g cost prize v c d) = true ∨
    O.lt (gainBetween O g cost prize v c d) (gainBetween O g cost prize v a b) = true

/-- Two closed walks have the same edges (as unordered pairs, each as often): the one starts elsewhere on the cycle of the other, or goes
round it in the other direction, or both. -/
def SameCycle (s t : List Nat) : Prop := ((consec s).map und).Perm ((consec t).map und)

end Pctsp
