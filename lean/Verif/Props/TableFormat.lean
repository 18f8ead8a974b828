import Verif.Model.TableFormat
import Mathlib.Tactic.IntervalCases

/-!
# C166: the column formats of the LaTeX tables
-/

namespace Pctsp

/-- The format meant for a measure: three places for gaps and ratios, whole numbers for counts, with separators for sizes of graphs, else scientific notation. -/
def measureFormat (m : String) : ColFormat :=
  if m ∈ ["mean_gap", "metricness", "disjoint_prize_ratio", "preprocessed_prize_ratio", "mean_disjoint_prize_ratio", "mean_preprocessed_prize_ratio"] then .gap
  else if m ∈ ["num_optimal_solutions", "num_feasible_solutions"] then .count
  else if m ∈ ["num_nodes", "num_edges", "preprocessed_num_nodes", "preprocessed_num_edges"] then .sep
  else .num

theorem flatMap_column {ms : List String} (labels : List String) : ∀ (i : Nat) (n m : String),
    (labels.flatMap fun n => ms.map fun m => (n, m))[i]? = some (n, m) → ms[i % ms.length]? = some m := by
  induction labels with
  | nil => simp
  | cons a l ih =>
    intro i n m h
    rw [List.flatMap_cons, List.getElem?_append] at h
    split at h
    · next hi =>
      rw [List.length_map] at hi
      rw [Nat.mod_eq_of_lt hi]
      rw [List.getElem?_map] at h
      cases hm : ms[i]? with
      | none => simp [hm] at h
      | some b => simp [hm] at h; rw [h.2]
    · next hi =>
      rw [List.length_map] at hi h
      have := ih _ _ _ h
      rwa [← Nat.mod_eq_sub_mod (by omega)] at this

theorem tableColumns_length (labels measures : List String) : (tableColumns labels measures).length = labels.length * (sortColumns measures).length := by
  rw [tableColumns]
  induction labels with
  | nil => simp
  | cons a l ih => rw [List.flatMap_cons, List.length_append, ih, List.length_map, List.length_cons, Nat.succ_mul, Nat.add_comm]

theorem sort_alpha : (ccMeasures "cc_londonaq_alpha").map sortColumns = some ["mean_gap", "mean_lower_bound", "mean_upper_bound", "num_feasible_solutions"] := by decide +kernel
theorem sort_cover : (ccMeasures "cost_cover").map sortColumns = some ["avg_cuts_presolve", "mean_duration", "mean_gap", "num_optimal_solutions"] := by decide +kernel
theorem sort_heuristic : sortColumns heuristicMeasures = ["mean_duration", "mean_gap", "num_feasible_solutions", "num_optimal_solutions"] := by decide +kernel
theorem sort_tsplib : sortColumns tsplibMeasures = ["mean_disjoint_prize_ratio", "mean_preprocessed_prize_ratio"] := by decide +kernel

/-- **C166.** The table of the covers: there is a format iff the experiment is one of two; every column has one iff there are at most three covers, and each column that has one has the format of its
measure. -/
theorem C166_covers (tspwplib : Bool) (experiment : String) (labels : List String) :
    (ccFormat tspwplib experiment = none ↔ ¬ (experiment = "cc_londonaq_alpha" ∨ experiment = "cost_cover")) ∧
    ∀ fmt, ccFormat tspwplib experiment = some fmt → ∃ measures, ccMeasures experiment = some measures ∧
      (indexLevels tspwplib + (tableColumns labels measures).length ≤ fmt.length ↔ labels.length ≤ 3) ∧
      (∀ i < indexLevels tspwplib, fmt[i]? = some .left) ∧
      ∀ i label measure f, (tableColumns labels measures)[i]? = some (label, measure) → fmt[indexLevels tspwplib + i]? = some f → f = measureFormat measure := by
  have key : ∀ ms four : List String, ∀ pat : List ColFormat, sortColumns ms = four → four.length = 4 → pat.length = 4 →
      (∀ r < 4, ∀ m f, four[r]? = some m → pat[r]? = some f → f = measureFormat m) →
      ∀ fmt : List ColFormat, fmt = List.replicate (indexLevels tspwplib) .left ++ (List.replicate 3 pat).flatten →
      (indexLevels tspwplib + (tableColumns labels ms).length ≤ fmt.length ↔ labels.length ≤ 3) ∧
      (∀ i < indexLevels tspwplib, fmt[i]? = some .left) ∧
      ∀ i label measure f, (tableColumns labels ms)[i]? = some (label, measure) → fmt[indexLevels tspwplib + i]? = some f → f = measureFormat measure := by
    intro ms four pat hms h4 hp hpat fmt hfmt
    refine ⟨?_, ?_, ?_⟩
    · rw [tableColumns_length, hms, h4, hfmt]
      simp only [List.length_append, List.length_replicate, List.replicate, List.flatten_cons, List.flatten_nil, List.length_nil, hp]
      omega
    · intro i hi
      rw [hfmt, List.getElem?_append_left (by simpa using hi), List.getElem?_replicate, if_pos hi]
    · intro i label m f hc hf
      have hm := flatMap_column labels i label m hc
      rw [hms, h4] at hm
      rw [hfmt, List.getElem?_append_right (by simp), List.length_replicate, Nat.add_sub_cancel_left] at hf
      refine hpat (i % 4) (Nat.mod_lt _ (by omega)) m f hm ?_
      obtain ⟨a, b, c, d, rfl⟩ : ∃ a b c d, pat = [a, b, c, d] := by
        rcases pat with _ | ⟨a, _ | ⟨b, _ | ⟨c, _ | ⟨d, _ | ⟨e, l⟩⟩⟩⟩⟩ <;> simp at hp
        exact ⟨a, b, c, d, rfl⟩
      have hi : i < 12 := by
        have := (List.getElem?_eq_some_iff.1 hf).1
        simpa [List.replicate] using this
      interval_cases i <;> exact hf
  by_cases ha : experiment = "cc_londonaq_alpha"
  · subst ha
    obtain ⟨ms, h1, h2⟩ := Option.map_eq_some_iff.1 sort_alpha
    refine ⟨by simp [ccFormat], fun fmt h => ⟨ms, h1, key ms _ [.gap, .num, .num, .count] h2 rfl rfl ?_ fmt ?_⟩⟩
    · intro r hr m f hm hf
      interval_cases r <;> (cases hm; cases hf; decide +kernel)
    · cases tspwplib <;> (cases h; rfl)
  · by_cases hb : experiment = "cost_cover"
    · subst hb
      obtain ⟨ms, h1, h2⟩ := Option.map_eq_some_iff.1 sort_cover
      refine ⟨by simp [ccFormat], fun fmt h => ⟨ms, h1, key ms _ [.num, .num, .gap, .count] h2 rfl rfl ?_ fmt ?_⟩⟩
      · intro r hr m f hm hf
        interval_cases r <;> (cases hm; cases hf; decide +kernel)
      · cases tspwplib <;> (simp [ccFormat] at h; subst h; rfl)
    · refine ⟨by simp [ccFormat, ha, hb], fun fmt h => ?_⟩
      simp [ccFormat, ha, hb] at h

/-- **C166.** The table of the heuristics: every column has a format iff there are at most three algorithms; whatever the algorithms, the number of optimal solutions of the first one does not have the
format of counts, and the mean gap of the second one does not have the format of gaps. -/
theorem C166_heuristics (tspwplib : Bool) (labels : List String) :
    (indexLevels tspwplib + (tableColumns labels heuristicMeasures).length ≤ (heuristicFormat tspwplib).length ↔ labels.length ≤ 3) ∧
    (∀ a l, labels = a :: l → ∃ i f, (tableColumns labels heuristicMeasures)[i]? = some (a, "num_optimal_solutions") ∧ (heuristicFormat tspwplib)[indexLevels tspwplib + i]? = some f ∧
      f ≠ measureFormat "num_optimal_solutions") ∧
    ∀ a b l, labels = a :: b :: l → ∃ i f, (tableColumns labels heuristicMeasures)[i]? = some (b, "mean_gap") ∧ (heuristicFormat tspwplib)[indexLevels tspwplib + i]? = some f ∧
      f ≠ measureFormat "mean_gap" := by
  refine ⟨?_, ?_, ?_⟩
  · rw [tableColumns_length, sort_heuristic]
    cases tspwplib <;> simp [indexLevels, heuristicFormat, List.replicate] <;> omega
  · rintro a l rfl
    refine ⟨3, .num, ?_, ?_, by decide +kernel⟩
    · rw [tableColumns, sort_heuristic]; rfl
    · cases tspwplib <;> rfl
  · rintro a b l rfl
    refine ⟨5, .count, ?_, ?_, by decide +kernel⟩
    · rw [tableColumns, sort_heuristic]; rfl
    · cases tspwplib <;> rfl

/-- **C166.** The tables of the datasets: the one of `londonaq` has exactly a format for every column, of the right kind; that of the other dataset iff there are at most two cost functions, and what
has a format has the right one. -/
theorem C166_datasets (labels : List String) :
    londonaqFormat = .left :: londonaqMeasures.map measureFormat ∧
    (1 + (tableColumns labels tsplibMeasures).length ≤ tsplibFormat.length ↔ labels.length ≤ 2) ∧
    ∀ i label measure f, (tableColumns labels tsplibMeasures)[i]? = some (label, measure) → tsplibFormat[1 + i]? = some f → f = measureFormat measure := by
  refine ⟨by decide +kernel, ?_, ?_⟩
  · rw [tableColumns_length, sort_tsplib]
    simp [tsplibFormat]; omega
  · intro i label m f hc hf
    have hm := flatMap_column labels i label m hc
    rw [sort_tsplib] at hm
    have hi : i < 4 := by
      have := (List.getElem?_eq_some_iff.1 hf).1
      simp [tsplibFormat] at this
      omega
    interval_cases i <;> (cases hm; cases hf; decide +kernel)

/-- The table of the three covers and a table of two algorithms have columns. -/
example : ∃ ms, ccMeasures "cost_cover" = some ms ∧ (tableColumns ["Cost cover disjoint paths", "Cost cover shortest paths", "No cost cover"] ms)[5]? = some ("Cost cover shortest paths", "mean_duration") :=
  ⟨_, rfl, by decide +kernel⟩
example : (tableColumns ["BFS-EC", "SBL-PEC"] heuristicMeasures)[5]? = some ("SBL-PEC", "mean_gap") := by decide +kernel

end Pctsp
