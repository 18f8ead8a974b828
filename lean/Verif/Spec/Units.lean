import Mathlib.Data.Int.Log
import Mathlib.Data.Rat.Floor
import Verif.Model.Float
import Verif.Model.Collapse

/-!
# Units of costs and prizes
-/

namespace Pctsp

/-- The same quantities in a unit that is `k` times smaller. -/
def inUnit (k : Int) (f : Nat → Int) : Nat → Int := fun i => k * f i

/-- The choice among the vertices of the queue of Dijkstra's algorithm does not change if all the distances are multiplied by `k`.  The heap of boost compares
distances and does nothing else with them, so for `k > 0` it is like that. -/
def UnitFree (k : Int) (pick : Pick) : Prop := ∀ r dist queue, pick r (fun v => (dist v).map (k * ·)) queue = pick r dist queue

/-- An extended number times a positive number. -/
def Ext.scale (c : Rat) : Ext → Ext
  | .nan => .nan
  | .inf s => .inf s
  | .fin q => .fin (c * q)

/-- Multiplying by `c` before rounding is multiplying by `c` after rounding. -/
def RoundsAlike (rnd : Rat → Ext) (c : Rat) : Prop := ∀ x, rnd (c * x) = (rnd x).scale c

/-- The nearest integer, an even one if there are two. -/
def halfEven (q : Rat) : Int :=
  if q - ⌊q⌋ < 1 / 2 then ⌊q⌋ else if 1 / 2 < q - ⌊q⌋ then ⌊q⌋ + 1 else if ⌊q⌋ % 2 = 0 then ⌊q⌋ else ⌊q⌋ + 1

/-- The weight of the last of the 24 binary digits of a number. -/
def lastDigit (x : Rat) : Rat := 2 ^ (Int.log 2 |x| - 23)

/-- IEEE single precision (`float`): 24 binary digits.  The exponent has no bounds here: quotients of 32 bit integers, their sums and averages are far from the
bounds. -/
def single (x : Rat) : Ext := if x = 0 then .fin 0 else .fin (halfEven (x / lastDigit x) * lastDigit x)

/-- The entries of a map in a unit that is `k` times smaller. -/
def entriesInUnit {κ : Type} (k : Int) (l : List (κ × Int)) : List (κ × Int) := l.map fun x => (x.1, k * x.2)

end Pctsp
