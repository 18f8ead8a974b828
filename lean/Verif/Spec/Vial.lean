import Verif.Model.Preprocess
import Verif.Spec.Cycles

/-!
# What the preprocessing of a vial relies on
-/

namespace Pctsp

variable {V : Type} [DecidableEq V]

/-- What the preprocessing relies on: the components that networkx returns are right, and the preprocessing ends without an exception with `h`. -/
structure Preprocessed (component : NxGraph V → V → List V) (components : NxGraph V → List (List V)) (limit : Nat) (flags : PreprocessFlags)
    (g : NxGraph V) (root : V) (h : NxGraph V) : Prop where
  comp : IsNodeComponent g root (component g root)
  bicomp : ∀ g', runPreprocessing component components limit { flags with removeOneConnected := false } g root = .ok g' → IsBicomponents g' (components g')
  run : runPreprocessing component components limit flags g root = .ok h

end Pctsp
