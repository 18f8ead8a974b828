import Verif.Props.Variants
import Verif.Lemmas.DomExamples

/-!
# C147: which heuristic is better than which
-/

namespace Pctsp

namespace HeuristicSetting

variable {F V W : Type} [LinearOrder V] [LinearOrder W]

/-- The cost of the tour that a heuristic finds is determined by the setting. -/
theorem Finds.unique {S : HeuristicSetting F V W} {a : AlgorithmName} {c d : Int} (h : S.Finds a c) (k : S.Finds a d) : c = d := by
  obtain ⟨t, h1, h2, rfl⟩ := h
  obtain ⟨t', k1, -, rfl⟩ := k
  rw [h1, Res.ok.injEq] at k1
  rw [eq_of_consec_eq k1 (by have := h2.three; omega)]

/-- If Suurballe's heuristic finds a tour, then so do the two heuristics that start from it, and path extension and collapse finds one that costs no more. -/
theorem Finds.start {S : HeuristicSetting F V W} {c : Int} (h : S.Finds .suurballesHeuristic c) :
    (∃ d, S.Finds .suurballesPathExtensionCollapse d ∧ d ≤ c) ∧ ∃ d, S.Finds .suurballesExtensionCollapse d := by
  obtain ⟨t, h1, h2, rfl⟩ := h
  have h3 := h2.three
  have hne : consec t ≠ [] := by
    match t, h3 with
    | a :: b :: t, _ => simp
  obtain ⟨t', ec, pec, k1, -, k3, k4, k5, k6, k7⟩ := C138_same_paths S.graphOk S.envOk S.suurballe S.noLoop S.pathsOk S.quota S.collapsePaths S.depthLimit
    S.stepSize h1 hne
  obtain rfl := eq_of_consec_eq k1 (by omega)
  exact ⟨⟨_, ⟨pec, k3, k4, rfl⟩, k5⟩, _, ec, k6, k7, rfl⟩

end HeuristicSetting

/-- **C147.** Of two heuristics the first can find a cheaper tour than the second exactly if they are different and the pair is not Suurballe's heuristic and the
path extension and collapse of its tour: no other heuristic is always at least as good as another one. -/
theorem C147_cheaper {a b : AlgorithmName} (ha : a ∈ heuristicNames) (hb : b ∈ heuristicNames) :
    SometimesCheaper a b ↔ a ≠ b ∧ ¬ (a = .suurballesHeuristic ∧ b = .suurballesPathExtensionCollapse) := by
  constructor
  · rintro ⟨F, V, W, _, _, S, c, d, h1, h2, h3⟩
    refine ⟨fun h => ?_, ?_⟩
    · rw [h] at h1
      have := h1.unique h2
      omega
    · rintro ⟨rfl, rfl⟩
      obtain ⟨⟨e, h4, h5⟩, -⟩ := h1.start
      have := h4.unique h2
      omega
  · rintro ⟨h1, h2⟩
    simp only [heuristicNames, List.mem_cons, List.not_mem_nil, or_false] at ha hb
    rcases ha with rfl | rfl | rfl | rfl | rfl <;> rcases hb with rfl | rfl | rfl | rfl | rfl
    all_goals first
      | exact absurd rfl h1
      | exact absurd ⟨rfl, rfl⟩ h2
      | skip
    · exact ⟨_, _, _, _, _, _, _, _, becData_bec, becData_bpec, by decide⟩
    · exact ⟨_, _, _, _, _, _, _, _, becData_bec, becData_sbl, by decide⟩
    · exact ⟨_, _, _, _, _, _, _, _, becData_bec, becData_sec, by decide⟩
    · exact ⟨_, _, _, _, _, _, _, _, becData_bec, becData_spec, by decide⟩
    · exact ⟨_, _, _, _, _, _, _, _, bpecData_bpec, bpecData_bec, by decide⟩
    · exact ⟨_, _, _, _, _, _, _, _, bpecData_bpec, bpecData_sbl, by decide⟩
    · exact ⟨_, _, _, _, _, _, _, _, bpecData_bpec, bpecData_sec, by decide⟩
    · exact ⟨_, _, _, _, _, _, _, _, bpecData_bpec, bpecData_spec, by decide⟩
    · exact ⟨_, _, _, _, _, _, _, _, sblData_sbl, sblData_bec, by decide⟩
    · exact ⟨_, _, _, _, _, _, _, _, sblData_sbl, sblData_bpec, by decide⟩
    · exact ⟨_, _, _, _, _, _, _, _, sblData_sbl, sblData_sec, by decide⟩
    · exact ⟨_, _, _, _, _, _, _, _, secData_sec, secData_bec, by decide⟩
    · exact ⟨_, _, _, _, _, _, _, _, secData_sec, secData_bpec, by decide⟩
    · exact ⟨_, _, _, _, _, _, _, _, secData_sec, secData_sbl, by decide⟩
    · exact ⟨_, _, _, _, _, _, _, _, secData_sec, secData_spec, by decide⟩
    · exact ⟨_, _, _, _, _, _, _, _, specData_spec, specData_bec, by decide⟩
    · exact ⟨_, _, _, _, _, _, _, _, specData_spec, specData_bpec, by decide⟩
    · exact ⟨_, _, _, _, _, _, _, _, specData_spec, specData_sbl, by decide⟩
    · exact ⟨_, _, _, _, _, _, _, _, specData_spec, specData_sec, by decide⟩

/-- **C147.** Each heuristic but Suurballe's can be the best: all five find a tour, and its tour is cheaper than the four others. -/
theorem C147_best {a : AlgorithmName} (ha : a ∈ heuristicNames) : a ≠ .suurballesHeuristic ↔
    ∃ (F V W : Type) (_ : LinearOrder V) (_ : LinearOrder W) (S : HeuristicSetting F V W) (c : AlgorithmName → Int),
      ∀ b ∈ heuristicNames, S.Finds b (c b) ∧ (b ≠ a → c a < c b) := by
  constructor
  · intro h
    simp only [heuristicNames, List.mem_cons, List.not_mem_nil, or_false] at ha
    rcases ha with rfl | rfl | rfl | rfl | rfl
    · refine ⟨_, _, _, _, _, DomData.setting becData_good 6, fun | .bfsExtensionCollapse => 19 | .suurballesHeuristic => 23 | _ => 21, ?_⟩
      simpa [heuristicNames] using ⟨becData_bec, becData_bpec, becData_sbl, becData_sec, becData_spec⟩
    · refine ⟨_, _, _, _, _, DomData.setting bpecData_good 6, fun | .bfsExtensionCollapse => 13 | .bfsPathExtensionCollapse => 12 | _ => 14, ?_⟩
      simpa [heuristicNames] using ⟨bpecData_bec, bpecData_bpec, bpecData_sbl, bpecData_sec, bpecData_spec⟩
    · exact absurd rfl h
    · refine ⟨_, _, _, _, _, DomData.setting secData_good 7,
        fun | .bfsExtensionCollapse => 7 | .suurballesPathExtensionCollapse => 7 | .suurballesExtensionCollapse => 6 | _ => 9, ?_⟩
      simpa [heuristicNames] using ⟨secData_bec, secData_bpec, secData_sbl, secData_sec, secData_spec⟩
    · refine ⟨_, _, _, _, _, DomData.setting specData_good 7, fun | .suurballesPathExtensionCollapse => 12 | .suurballesHeuristic => 17 | _ => 15, ?_⟩
      simpa [heuristicNames] using ⟨specData_bec, specData_bpec, specData_sbl, specData_sec, specData_spec⟩
  · rintro ⟨F, V, W, _, _, S, c, h⟩ rfl
    obtain ⟨h1, -⟩ := h _ ha
    obtain ⟨h2, h3⟩ := h .suurballesPathExtensionCollapse (by decide)
    obtain ⟨⟨d, h4, h5⟩, -⟩ := h1.start
    have := h4.unique h2
    have := h3 (by decide)
    omega

/-- **C147.** The first can find a tour where the second returns none that meets the quota, exactly if they are different and the pair is not Suurballe's
heuristic and one of the two heuristics that start from its tour. -/
theorem C147_only {a b : AlgorithmName} (ha : a ∈ heuristicNames) (hb : b ∈ heuristicNames) :
    SometimesOnly a b ↔
      a ≠ b ∧ ¬ (a = .suurballesHeuristic ∧ (b = .suurballesExtensionCollapse ∨ b = .suurballesPathExtensionCollapse)) := by
  constructor
  · rintro ⟨F, V, W, _, _, S, c, h1, -, h2⟩
    refine ⟨fun h => h2 c (h ▸ h1), ?_⟩
    rintro ⟨rfl, rfl | rfl⟩
    · obtain ⟨-, d, h3⟩ := h1.start
      exact h2 d h3
    · obtain ⟨⟨d, h3, -⟩, -⟩ := h1.start
      exact h2 d h3
  · rintro ⟨h1, h2⟩
    simp only [heuristicNames, List.mem_cons, List.not_mem_nil, or_false] at ha hb
    rcases ha with rfl | rfl | rfl | rfl | rfl <;> rcases hb with rfl | rfl | rfl | rfl | rfl
    all_goals first
      | exact absurd rfl h1
      | exact absurd ⟨rfl, .inl rfl⟩ h2
      | exact absurd ⟨rfl, .inr rfl⟩ h2
      | skip
    · exact ⟨_, _, _, _, _, _, _, onlyBecData_bec, onlyBecData_bpec⟩
    · exact ⟨_, _, _, _, _, _, _, onlyBecData_bec, onlyBecData_sbl⟩
    · exact ⟨_, _, _, _, _, _, _, onlyBecData_bec, onlyBecData_sec⟩
    · exact ⟨_, _, _, _, _, _, _, onlyBecData_bec, onlyBecData_spec⟩
    · exact ⟨_, _, _, _, _, _, _, onlyPecData_bpec, onlyPecData_bec⟩
    · exact ⟨_, _, _, _, _, _, _, onlyPecData_bpec, onlyPecData_sbl⟩
    · exact ⟨_, _, _, _, _, _, _, onlyPecData_bpec, onlyPecData_sec⟩
    · exact ⟨_, _, _, _, _, _, _, onlyBfsData_bpec, onlyBfsData_spec⟩
    · exact ⟨_, _, _, _, _, _, _, noBfsData_sbl, noBfsData_bec⟩
    · exact ⟨_, _, _, _, _, _, _, noBfsData_sbl, noBfsData_bpec⟩
    · exact ⟨_, _, _, _, _, _, _, noBfsData_sec, noBfsData_bec⟩
    · exact ⟨_, _, _, _, _, _, _, noBfsData_sec, noBfsData_bpec⟩
    · exact ⟨_, _, _, _, _, _, _, noSpecData_sec, noSpecData_sbl⟩
    · exact ⟨_, _, _, _, _, _, _, noSpecData_sec, noSpecData_spec⟩
    · exact ⟨_, _, _, _, _, _, _, noBfsData_spec, noBfsData_bec⟩
    · exact ⟨_, _, _, _, _, _, _, noBfsData_spec, noBfsData_bpec⟩
    · exact ⟨_, _, _, _, _, _, _, onlyPecData_spec, onlyPecData_sbl⟩
    · exact ⟨_, _, _, _, _, _, _, onlyPecData_spec, onlyPecData_sec⟩

example : ¬ SometimesCheaper .suurballesHeuristic .suurballesPathExtensionCollapse := by
  rw [C147_cheaper (by decide) (by decide)]
  simp

example : SometimesCheaper .bfsExtensionCollapse .suurballesPathExtensionCollapse ∧ SometimesOnly .suurballesHeuristic .bfsPathExtensionCollapse :=
  ⟨(C147_cheaper (by decide) (by decide)).2 (by decide), (C147_only (by decide) (by decide)).2 (by decide)⟩

end Pctsp
