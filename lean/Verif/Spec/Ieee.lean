import Verif.Spec.Units
import Verif.Spec.Insertion
import Mathlib.Algebra.Order.Field.Rat

/-!
# IEEE 754 binary floating point numbers

Rounding to the nearest number of a format, ties to even, with subnormal numbers and overflow to infinity.  The formats are those of `float` and `double`
on all machines the library is built for.
-/

namespace Pctsp

/-- The exponent of the last of `p` binary digits of `x`, at least `emin`. -/
def lastExponent (p : Nat) (emin : Int) (x : Rat) : Int := max (Int.log 2 |x| - (p - 1)) emin

/-- Rounding to `p` binary digits, the last of which has a weight of at least `2 ^ emin`, without overflow. -/
def roundTo (p : Nat) (emin : Int) (x : Rat) : Rat := halfEven (x / 2 ^ lastExponent p emin x) * 2 ^ lastExponent p emin x

/-- The same with overflow: numbers that would be rounded to `2 ^ emax` or more become infinite. -/
def ieeeRound (p : Nat) (emin emax : Int) (x : Rat) : Ext :=
  if |roundTo p emin x| < 2 ^ emax then .fin (roundTo p emin x) else .inf (decide (x < 0))

/-- `float`: 24 digits, exponents from -149 to 127. -/
def binary32 : Rat → Ext := ieeeRound 24 (-149) 128

/-- `double`: 53 digits, exponents from -1074 to 1023. -/
def binary64 : Rat → Ext := ieeeRound 53 (-1074) 1024

/-- The nearest `int`.  The code only converts numbers of type `int`; what happens to others is left open by this choice. -/
def toInt32 (i : Int) : Int := max (-2 ^ 31) (min (2 ^ 31 - 1) i)

/-- The arithmetic of `float`, with the conversion from `int`. -/
def FloatOps.float : FloatOps Ext := { FloatOps.ieee binary32 with ofInt := fun i => binary32 (toInt32 i) }

/-- `a / b` exceeds `c / d` by at most `2 ^ -22` times the sum of their magnitudes (for positive `b` and `d`), written without division. -/
def NotMuchAbove (a b c d : Int) : Prop := 2 ^ 22 * (a * d - c * b) ≤ |a| * d + |c| * b

/-- The extra cost of visiting `v` between `a` and `b`. -/
def extraCost (g : Graph) (cost : Nat → Int) (v a b : Nat) : Int := pairCost g cost a v + pairCost g cost v b - pairCost g cost a b

/-- Inserting `v` between `a` and `b` wins prize, and the extra cost per prize is not much above that of any other insertion that wins prize. -/
structure NearlyLeastLoss (g : Graph) (cost prize : Nat → Int) (t : List Nat) (v a b : Nat) : Prop where
  insertable : Insertable g t v a b
  positive : 0 < prize v
  least : ∀ v' a' b', Insertable g t v' a' b' → 0 < prize v' →
    NotMuchAbove (extraCost g cost v a b) (prize v) (extraCost g cost v' a' b') (prize v')

/-- Inserting `v` between `a` and `b` wins prize at no negative extra cost, and no other such insertion has a prize per extra cost that is much above. -/
structure NearlyBestInsertion (g : Graph) (cost prize : Nat → Int) (t : List Nat) (v a b : Nat) : Prop where
  insertable : Insertable g t v a b
  positive : 0 < prize v
  notCheaper : 0 ≤ extraCost g cost v a b
  best : ∀ v' a' b', Insertable g t v' a' b' → 0 < prize v' → 0 ≤ extraCost g cost v' a' b' →
    NotMuchAbove (prize v') (extraCost g cost v' a' b') (prize v) (extraCost g cost v a b)

end Pctsp
