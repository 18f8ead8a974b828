import Verif.Spec.Lab
import Verif.Props.Binding
import Verif.Props.DisjointMap

/-!
# Lemmas about the runs of the heuristics
-/

set_option linter.unusedSectionVars false

namespace Pctsp

variable {F V : Type} [DecidableEq V]

theorem LabGraph.Ok.tour {G : LabGraph V} {w : V → V → Int} {π : V → Int} (h : G.Ok w π) {root : V} {m : List V} (hc : NxCycle G.nx (root :: m)) :
    IsTourIn G.edges root (root :: (m ++ [root])) := by
  refine ⟨⟨m, rfl⟩, ?_, fun p hp => ?_⟩
  · rw [← List.cons_append, List.dropLast_concat]; exact hc.nodup
  · exact (h.adj _ _).1 (hc.closed p (by simpa using hp))

/-- The extension by unitary gain and the collapse of a tour. -/
theorem runExtensionCollapse_spec {env : LabEnv F V} {G : LabGraph V} {w : V → V → Int} {π : V → Int} {root : V} (hG : G.Ok w π)
    (hE : env.Ok G π root) (quota : Int) {small : List V} (hs : IsTourIn G.edges root small) :
    ∃ long t, extensionUnitaryGainBind env.float G.edges small G.costs G.prizes = .ok long ∧ IsTourIn G.edges root long ∧
      namedPrize π small ≤ namedPrize π long ∧
      runExtensionCollapse env G quota root small = .ok t ∧ IsTourIn G.edges root t ∧ namedCost w t ≤ namedCost w long ∧
      (quota ≤ namedPrize π long → quota ≤ namedPrize π t) ∧ (4 ≤ small.length → 4 ≤ t.length) := by
  obtain ⟨⟨long, h1, h2, h3, -, hl⟩, ⟨t1, h4, -⟩⟩ := C52_extension_gain env.float hE.strict hE.divSign G.edges G.costs G.prizes w π hG.describes hG.prizes
    root small hs quota
  obtain ⟨t, h5, h6, h7, h8, h9⟩ := C52_collapse G.edges G.costs G.prizes w π hG.describes hG.prizes root long h2 quota false (by simp) env.pick hE.pick
  refine ⟨long, t, h1, h2, h3, ?_, h6, h7, h8, fun h => h9 (by omega)⟩
  simp only [runExtensionCollapse, extensionUnitaryGainCollapsePy, h4, h1, Res.ok_bind, h5]

/-- An empty tour is passed on to the library, which is undefined. -/
theorem runExtensionCollapse_nil {env : LabEnv F V} {G : LabGraph V} {w : V → V → Int} {π : V → Int} {root : V} (hG : G.Ok w π) (quota : Int) :
    (runExtensionCollapse env G quota root []).isUb = true := by
  obtain ⟨p, h1, h2, -⟩ := prepare_spec hG.describes (tour := []) (by simp)
  have : p.tour = [] := List.forall₂_nil_left_iff.1 h2.named
  refine Res.isUb_bind ?_ _
  simp only [extensionUntilPrizeFeasibleBind, h1, Res.ok_bind, this, extensionUntilPrizeFeasible, totalPrizeOfTour, Res.ub_bind]
  rfl

theorem runPathExtensionCollapse_nil {env : LabEnv F V} {G : LabGraph V} {w : V → V → Int} {π : V → Int} {root : V} (hG : G.Ok w π)
    (quota : Int) (cp : Option Bool) (dl ss : Option Int) :
    (runPathExtensionCollapse env G quota root cp dl ss []).isUb = true := by
  obtain ⟨p, h1, h2, -⟩ := prepare_spec hG.describes (tour := []) (by simp)
  have : p.tour = [] := List.forall₂_nil_left_iff.1 h2.named
  cases h : getNewVertex (renameEdges [] G.edges).2 root with
  | ok k =>
    have e : prepareRoot G.edges [] G.costs G.prizes root = .ok (p, k) := by
      simp only [prepareRoot, h, Res.ok_bind, h1]; rfl
    simp only [runPathExtensionCollapse, pathExtensionCollapseBind, e, Res.ok_bind, pathExtensionCollapse, this, totalPrizeOfTour, Res.ub_bind]
    rfl
  | ub s => simp only [runPathExtensionCollapse, pathExtensionCollapseBind, prepareRoot, h, Res.ub_bind]; rfl
  | throw e =>
    rw [getNewVertex] at h
    split at h <;> cases h

/-- The two heuristics after the first tour has been found. -/
theorem runHeuristic_of_first {env : LabEnv F V} {G : LabGraph V} {π : V → Int} {root : V}
    (hE : env.Ok G π root) {quota : Int} {alg : AlgorithmName} {costMap : List (V × Int)} {pathsMap : List (V × (List V × List V))}
    {cp : Option Bool} {dl ss : Option Int} (hu : usesSuurballe alg = true → costMap ≠ [] ∧ pathsMap ≠ []) {small t : List V}
    (h1 : firstTour env G quota root alg costMap pathsMap = .ok small)
    (h2 : heuristicTour env G quota root alg costMap pathsMap cp dl ss small = .ok t) :
    runHeuristic env G quota root alg costMap pathsMap cp dl ss = .ok (consec t) := by
  obtain ⟨b, hb⟩ := hE.isYes (t.zip t.tail)
  have : (usesSuurballe alg && (costMap.isEmpty || pathsMap.isEmpty)) = false := by
    cases h : usesSuurballe alg
    · rfl
    · simp [hu h]
  rw [runHeuristic, this, if_neg (by simp)]
  simp only [h1, h2, hb, Res.ok_bind]
  rfl

theorem runHeuristic_ub {env : LabEnv F V} {G : LabGraph V} {root : V} {quota : Int} {alg : AlgorithmName} {costMap : List (V × Int)}
    {pathsMap : List (V × (List V × List V))} {cp : Option Bool} {dl ss : Option Int} (hu : usesSuurballe alg = true → costMap ≠ [] ∧ pathsMap ≠ [])
    {small : List V} (h1 : firstTour env G quota root alg costMap pathsMap = .ok small)
    (h2 : (heuristicTour env G quota root alg costMap pathsMap cp dl ss small).isUb = true) :
    (runHeuristic env G quota root alg costMap pathsMap cp dl ss).isUb = true := by
  have : (usesSuurballe alg && (costMap.isEmpty || pathsMap.isEmpty)) = false := by
    cases h : usesSuurballe alg
    · rfl
    · simp [hu h]
  rw [runHeuristic, this, if_neg (by simp)]
  simp only [h1, Res.ok_bind]
  exact Res.isUb_bind h2 _

end Pctsp
