import Verif.Model.CsvHome
import Verif.Spec.Batch

/-!
# Words for C159
-/

namespace Pctsp

variable {U V P : Type} [DecidableEq U]

/-- An event that writes no experiment and gives none of the vials a result. -/
def CsvEvent.Quiet (vials : List (LabVial U P)) : CsvEvent U V P → Prop
  | .setup _ => False
  | .results s => ∀ v ∈ vials, ¬ HasResult s v
  | .stats _ => True
  | .csv _ => True

/-- The command fails, and not because there is no experiment. -/
def CsvRaises (L : CsvLab U V P) (c : (DatasetName × ExperimentName) × Bool) : Prop := ∃ e, (csvCmd c.2 (L c.1)).2 = .error e ∧ e ≠ .fileNotFound

end Pctsp
