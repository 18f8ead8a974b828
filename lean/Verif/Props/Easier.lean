import Verif.Lemmas.Easier
import Verif.Lemmas.EasierExamples

/-!
# C148: what the heuristics do when the instance gets easier
-/

namespace Pctsp

/-- **C148.** Each of the five heuristics can find a dearer tour after the instance has been made easier in each of the four ways, except Suurballe's
heuristic after the quota has been lowered or prizes have been raised. -/
theorem C148_dearer {a : AlgorithmName} (ha : a ∈ heuristicNames) (k : Ease) :
    CanGetDearer a k ↔ ¬ (a = .suurballesHeuristic ∧ (k = .quota ∨ k = .prize)) := by
  constructor
  · rintro ⟨F, V, W, _, _, S, S', c, c', h1, h2, h3, h4⟩ ⟨rfl, h⟩
    obtain ⟨d, h5, h6⟩ : ∃ d, S'.Finds .suurballesHeuristic d ∧ d ≤ c := by
      rcases h with rfl | rfl
      · obtain ⟨hq, ho, hg, hc, hp⟩ := h1
        exact h2.suurballe ho.root hc.distances hc.paths hg.edges (fun x => by rw [hp.π]) hq
      · obtain ⟨hp, hq, ho, hg, hc⟩ := h1
        exact h2.suurballe ho.root hc.distances hc.paths hg.edges hp hq.le
    have := h5.unique h3
    omega
  · intro h
    simp only [heuristicNames, List.mem_cons, List.not_mem_nil, or_false] at ha
    rcases ha with rfl | rfl | rfl | rfl | rfl <;> cases k
    · exact quota_dearer_bec
    · exact prize_dearer_bec
    · exact cost_dearer_bec
    · exact edge_dearer_bec
    · exact quota_dearer_bpec
    · exact prize_dearer_bpec
    · exact cost_dearer_bpec
    · exact edge_dearer_bpec
    · exact absurd ⟨rfl, .inl rfl⟩ h
    · exact absurd ⟨rfl, .inr rfl⟩ h
    · exact cost_dearer_sbl
    · exact edge_dearer_sbl
    · exact quota_dearer_sec
    · exact prize_dearer_sec
    · exact cost_dearer_sec
    · exact edge_dearer_sec
    · exact quota_dearer_spec
    · exact prize_dearer_spec
    · exact cost_dearer_spec
    · exact edge_dearer_spec

/-- **C148.** Each of the five heuristics can lose its tour when the instance is made easier in each of the four ways, except Suurballe's heuristic when the
quota is lowered or prizes are raised, and the two that start from a cycle of a breadth first search when the quota is lowered. -/
theorem C148_lost {a : AlgorithmName} (ha : a ∈ heuristicNames) (k : Ease) :
    CanGetLost a k ↔ ¬ (a = .suurballesHeuristic ∧ (k = .quota ∨ k = .prize)) ∧
      ¬ ((a = .bfsExtensionCollapse ∨ a = .bfsPathExtensionCollapse) ∧ k = .quota) := by
  constructor
  · rintro ⟨F, V, W, _, _, S, S', c, h1, h2, -, h3⟩
    constructor
    · rintro ⟨rfl, rfl | rfl⟩
      · obtain ⟨hq, ho, hg, hc, hp⟩ := h1
        obtain ⟨d, h4, -⟩ := h2.suurballe ho.root hc.distances hc.paths hg.edges (fun x => by rw [hp.π]) hq
        exact h3 d h4
      · obtain ⟨hp, hq, ho, hg, hc⟩ := h1
        obtain ⟨d, h4, -⟩ := h2.suurballe ho.root hc.distances hc.paths hg.edges hp hq.le
        exact h3 d h4
    · rintro ⟨rfl | rfl, rfl⟩
      · obtain ⟨hq, ho, hg, hc, hp⟩ := h1
        obtain ⟨d, h4⟩ := h2.bfs_ec ho hg hc.costs hp hq
        exact h3 d h4
      · obtain ⟨hq, ho, hg, hc, hp⟩ := h1
        obtain ⟨d, h4⟩ := h2.bfs_pec ho hg hc.costs hp hq
        exact h3 d h4
  · rintro ⟨h, h'⟩
    simp only [heuristicNames, List.mem_cons, List.not_mem_nil, or_false] at ha
    rcases ha with rfl | rfl | rfl | rfl | rfl <;> cases k
    · exact absurd ⟨.inl rfl, rfl⟩ h'
    · exact prize_lost_bec
    · exact cost_lost_bec
    · exact edge_lost_bec
    · exact absurd ⟨.inr rfl, rfl⟩ h'
    · exact prize_lost_bpec
    · exact cost_lost_bpec
    · exact edge_lost_bpec
    · exact absurd ⟨rfl, .inl rfl⟩ h
    · exact absurd ⟨rfl, .inr rfl⟩ h
    · exact cost_lost_sbl
    · exact edge_lost_sbl
    · exact quota_lost_sec
    · exact prize_lost_sec
    · exact cost_lost_sec
    · exact edge_lost_sec
    · exact quota_lost_spec
    · exact prize_lost_spec
    · exact cost_lost_spec
    · exact edge_lost_spec

/-- Settings that get easier in the cases in which nothing is lost. -/
example : (DomData.setting becData_good 6).Easier (DomData.setting becData_good 4) .quota ∧
    (DomData.setting becData_good 6).Finds .bfsExtensionCollapse 19 ∧ (DomData.setting becData_good 6).Finds .bfsPathExtensionCollapse 21 ∧
    (DomData.setting becData_good 6).Finds .suurballesHeuristic 23 :=
  ⟨DomData.easier_quota _ (by decide), becData_bec, becData_bpec, becData_sbl⟩

/-- **C148**, the library: `collapse` returns a tour whose prize is below the quota unchanged. -/
theorem C148_collapse_below (g : Graph) (hg : g.WF) (r : Nat) (t : List Nat) (ht : IsTour g r t) (cost prize : Nat → Int) (hp : ∀ v, 0 ≤ prize v) (quota : Int)
    (useShortest : Bool) (pick : Nat → Pick) (hq : tourPrize prize t < quota) : collapse g t cost prize quota r useShortest pick = .ok t :=
  collapse_below hg ht hp hq

/-- The chord would make the tour cheaper. -/
example : IsTour { n := 4, edges := [(0, 1), (1, 2), (2, 3), (3, 0), (0, 2)] } 0 [0, 1, 2, 3, 0] ∧ tourPrize (fun _ => 1) [0, 1, 2, 3, 0] < 5 ∧
    collapse { n := 4, edges := [(0, 1), (1, 2), (2, 3), (3, 0), (0, 2)] } [0, 1, 2, 3, 0] (fun _ => 1) (fun _ => 1) 3 0 true (fun _ => exPick) ≠
      .ok [0, 1, 2, 3, 0] :=
  ⟨⟨⟨[1, 2, 3], rfl⟩, by decide, by decide⟩, by decide, by decide +kernel⟩

/-- **C148**, the library: if `path_extension_collapse` returns a tour for a quota, then it returns one for every lower quota. -/
theorem C148_path_extension_collapse {F : Type} (O : FloatOps F) (hO : O.SignSound) (g : Graph) (hg : g.WF) (r : Nat) (t : List Nat) (ht : IsTour g r t)
    (cost prize : Nat → Int) (hp : ∀ v, 0 ≤ prize v) (q q' : Int) (hq : q' ≤ q) (useShortest : Bool)
    (hc : useShortest = true → ∀ e < g.edges.length, 0 ≤ cost e) (pick0 : Nat → Pick) (pick : Nat → Nat → Pick)
    (hpick0 : ∀ i, (pick0 i).Heap) (hpick : ∀ j i, (pick j i).Heap) (depth step : Int) (s : List Nat)
    (h : pathExtensionCollapse O g t cost prize q r useShortest pick0 pick depth step = .ok s) (hs : s ≠ []) :
    ∃ s', pathExtensionCollapse O g t cost prize q' r useShortest pick0 pick depth step = .ok s' ∧ IsTour g r s' ∧ q' ≤ tourPrize prize s' := by
  obtain ⟨s', h1, h2⟩ := pathExtensionCollapse_lower O hO hg ht hp hq hc hpick0 hpick h hs
  obtain ⟨s'', h3, h4⟩ := C23_nothing_or_feasible O hO g hg r t ht cost prize hp q' useShortest hc pick0 pick hpick0 hpick depth step
  rw [h1] at h3; cases h3
  refine ⟨s', h1, h2, ?_⟩
  rcases h4 with ⟨rfl, -⟩ | ⟨-, h4, -⟩
  · exact absurd rfl h2.ne_nil
  · exact h4

/-- A quota for which the triangle has to be extended. -/
example : pathExtensionCollapse FloatOps.exact { n := 5, edges := [(0, 1), (1, 2), (2, 0), (3, 0), (3, 1), (4, 1), (4, 2)] }
    [0, 1, 2, 0] (fun _ => 1) (fun _ => 1) 5 0 true (fun _ => exPick) (fun _ _ => exPick) 2 1 ≠ .ok [] := by decide +kernel

end Pctsp
