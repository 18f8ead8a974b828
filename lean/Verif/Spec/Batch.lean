import Verif.Model.Batch

/-!
# What batches and result files are about
-/

namespace Pctsp

variable {U V P : Type}

/-- Rounding to a binary floating point number with 53 bits (no overflow): it is monotone and keeps the numbers that have at most 53 bits. -/
structure Rounds53 (rnd : Rat → Rat) : Prop where
  mono : ∀ x y, x ≤ y → rnd x ≤ rnd y
  exact : ∀ (m : Int) (k : Nat), -2 ^ 53 ≤ m → m ≤ 2 ^ 53 → k ≤ 1022 → rnd (m / 2 ^ k) = m / 2 ^ k

/-- The vial has a readable result. -/
def HasResult (s : Store U V) (v : LabVial U P) : Prop := ∃ r, s v.uuid = .good r

/-- Neither loading the problem raises nor does the process end. -/
def Attempt.survives : Attempt U V → Prop
  | .abort | .died => False
  | _ => True

/-- What an attempt makes of the result file of its vial. -/
def Attempt.fileAfter (u : U) (old : ResultFile U V) : Attempt U V → ResultFile U V
  | .unwritten _ f => f
  | .done r => .good ⟨u, r⟩
  | _ => old

/-- The result that an attempt returns. -/
def Attempt.result? : Attempt U V → Option (LabResult V)
  | .unwritten r _ | .done r => some r
  | _ => none

/-- All attempts succeed. -/
def AllDone (run : LabVial U P → Attempt U V) : Prop := ∀ v, ∃ r, run v = .done r

/-- No two vials have the same identifier. -/
def Distinct (vials : List (LabVial U P)) : Prop := (vials.map (·.uuid)).Nodup

/-- Every result file is that of its own vial. -/
def OwnResults (s : Store U V) (vials : List (LabVial U P)) : Prop := ∀ v ∈ vials, ∀ r, s v.uuid = .good r → r.uuid = v.uuid

/-- The result of a file. -/
def ResultFile.result? : ResultFile U V → Option (StoredResult U V)
  | .good r => some r
  | _ => none

end Pctsp
