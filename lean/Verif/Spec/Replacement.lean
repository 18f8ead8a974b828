import Verif.Spec.Tour

/-!
# Sequences of replacements

A segment of a tour is replaced by a detour through vertices outside of it.
-/

namespace Pctsp

/-- `Replacements g prize step depth k t t'`: `t'` comes from `t` by `k` replacements, one after the other.  Each replaces the interior of
a segment of `step` edges that does not run over the ends of the list by a path through at least one and at most `depth - 1` new
vertices, which have more prize than the old interior. -/
inductive Replacements (g : Graph) (prize : Nat → Int) (step depth : Int) : Nat → List Nat → List Nat → Prop
  | refl (t : List Nat) : Replacements g prize step depth 0 t t
  | replace {k : Nat} {A Y X B t' : List Nat} {u w : Nat} (hY : (Y.length : Int) + 1 = step) (hX : X ≠ [])
      (hd : (X.length : Int) ≤ depth - 1) (hw : IsWalk g (u :: (X ++ [w]))) (hn : X.Nodup)
      (hout : ∀ y ∈ X, y ∉ A ++ u :: (Y ++ w :: B)) (hp : prizeSum prize Y < prizeSum prize X)
      (hs : Replacements g prize step depth k (A ++ u :: (X ++ w :: B)) t') :
      Replacements g prize step depth (k + 1) (A ++ u :: (Y ++ w :: B)) t'

end Pctsp
