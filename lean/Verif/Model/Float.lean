import Verif.Model.Extension

/-!
# Floating point numbers with infinities and NaN

The heuristics divide by integers that may be zero (heuristic.cpp 9-23), so infinities and NaN do occur in the code.  This is the instance of
`FloatOps` that has them.  Signed zeros are not distinguished: the divisors are converted `int`s, which are never `-0`.
-/

namespace Pctsp

/-- Extended numbers. -/
inductive Ext where
  | nan
  | inf (neg : Bool)
  | fin (q : Rat)
  deriving DecidableEq, Repr

namespace Ext

/-- `<` of IEEE 754: false if one operand is a NaN. -/
def lt : Ext → Ext → Bool
  | fin a, fin b => decide (a < b)
  | inf true, fin _ => true
  | fin _, inf false => true
  | inf true, inf false => true
  | _, _ => false

/-- Addition, with `rnd` for finite results (`rnd` may overflow to an infinity). -/
def add (rnd : Rat → Ext) : Ext → Ext → Ext
  | fin a, fin b => rnd (a + b)
  | inf s, fin _ => inf s
  | fin _, inf s => inf s
  | inf s, inf t => if s = t then inf s else nan
  | _, _ => nan

/-- Division: `x / 0` is an infinity with the sign of `x`, `0 / 0` is a NaN. -/
def div (rnd : Rat → Ext) : Ext → Ext → Ext
  | fin a, fin b => if b = 0 then (if a = 0 then nan else inf (decide (a < 0))) else rnd (a / b)
  | inf s, fin b => inf (if b < 0 then !s else s)
  | fin _, inf _ => fin 0
  | _, _ => nan

end Ext

/-- IEEE arithmetic with an arbitrary rounding function. -/
def FloatOps.ieee (rnd : Rat → Ext) : FloatOps Ext where
  zero := .fin 0
  ofInt i := rnd i
  add := Ext.add rnd
  div := Ext.div rnd
  lt := Ext.lt

/-- The same without rounding, for examples. -/
def FloatOps.ieeeExact : FloatOps Ext := FloatOps.ieee .fin

end Pctsp
