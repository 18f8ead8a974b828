import Verif.Spec.CsvHome

/-!
# What a run of several CSV commands does to each file
-/

namespace Pctsp

variable {U V P : Type} [DecidableEq U]

/-- Each file is treated by its own command unless a command before raises. -/
theorem csvSteps_spec (cs : List ((DatasetName × ExperimentName) × Bool)) (hn : (cs.map (·.1)).Nodup) (L : CsvLab U V P) :
    (∀ k, k ∉ cs.map (·.1) → (csvSteps cs L).1 k = L k) ∧
    (∀ pre c post, cs = pre ++ c :: post → (∀ b ∈ pre, ¬ CsvRaises L b) → (csvSteps cs L).1 c.1 = (csvCmd c.2 (L c.1)).1) ∧
    (∀ pre c post, cs = pre ++ c :: post → (∃ b ∈ pre, CsvRaises L b) → (csvSteps cs L).1 c.1 = L c.1) ∧
    ((csvSteps cs L).2 = none ↔ ∀ c ∈ cs, ¬ CsvRaises L c) := by
  induction cs generalizing L with
  | nil => simp [csvSteps]
  | cons c cs ih =>
    obtain ⟨k, b⟩ := c
    have hk : k ∉ cs.map (·.1) := (List.nodup_cons.1 (by simpa using hn)).1
    have hn' : (cs.map (·.1)).Nodup := (List.nodup_cons.1 (by simpa using hn)).2
    have hne : ∀ c ∈ cs, c.1 ≠ k := fun c hc e => hk (List.mem_map.2 ⟨c, hc, e⟩)
    let L' : CsvLab U V P := fun k' => if k' = k then (csvCmd b (L k)).1 else L k'
    have hL' : ∀ k', k' ≠ k → L' k' = L k' := fun k' h => if_neg h
    have hLk : L' k = (csvCmd b (L k)).1 := if_pos rfl
    have hR : ∀ c ∈ cs, (CsvRaises L' c ↔ CsvRaises L c) := by
      intro c hc
      simp only [CsvRaises, hL' c.1 (hne c hc)]
    obtain ⟨i1, i2, i3, i4⟩ := ih hn' L'
    by_cases hr : CsvRaises L (k, b)
    · obtain ⟨e, h1, h2⟩ := hr
      have hs : csvSteps ((k, b) :: cs) L = (L', some e) := by
        rw [csvSteps]
        simp only [h1, if_neg h2]
        rfl
      refine ⟨?_, ?_, ?_, ?_⟩
      · intro k' hk'
        rw [hs]
        exact hL' k' fun e => hk' (by simp [e])
      · intro pre c post hc hpre
        cases pre with
        | nil => simp at hc; obtain ⟨rfl, -⟩ := hc; rw [hs]; exact hLk
        | cons p pre =>
          simp at hc
          exact absurd ⟨e, h1, h2⟩ (hc.1 ▸ hpre p (by simp))
      · intro pre c post hc hpre
        cases pre with
        | nil => simp at hpre
        | cons p pre =>
          simp at hc
          rw [hs]
          exact hL' _ (hne c (by rw [hc.2]; simp))
      · rw [hs]
        simp only [reduceCtorEq, false_iff, not_forall]
        exact ⟨(k, b), by simp, fun h => h ⟨e, h1, h2⟩⟩
    · have hs : csvSteps ((k, b) :: cs) L = csvSteps cs L' := by
        rw [csvSteps]
        cases hx : (csvCmd b (L k)).2 with
        | ok u => rfl
        | error e =>
          by_cases he : e = .fileNotFound
          · subst he; simp only [hx, if_pos]; rfl
          · exact absurd ⟨e, hx, he⟩ hr
      rw [hs]
      refine ⟨?_, ?_, ?_, ?_⟩
      · intro k' hk'
        simp at hk'
        rw [i1 k' (by simpa using hk'.2)]
        exact hL' k' (fun e => hk'.1 e)
      · intro pre c post hc hpre
        cases pre with
        | nil =>
          simp at hc; obtain ⟨rfl, -⟩ := hc
          rw [i1 k hk, hLk]
        | cons p pre =>
          simp at hc
          have hm : c ∈ cs := by rw [hc.2]; simp
          rw [i2 pre c post hc.2 fun b hb => ?_, hL' _ (hne c hm)]
          rw [hR b (by rw [hc.2]; simp [hb])]
          exact hpre b (by simp [hb])
      · intro pre c post hc hpre
        cases pre with
        | nil => simp at hpre
        | cons p pre =>
          simp at hc
          have hm : c ∈ cs := by rw [hc.2]; simp
          rw [i3 pre c post hc.2 ?_, hL' _ (hne c hm)]
          obtain ⟨q, hq, hq'⟩ := hpre
          rcases List.mem_cons.1 hq with rfl | hq
          · rw [← hc.1] at hq'; exact absurd hq' hr
          · exact ⟨q, hq, (hR q (by rw [hc.2]; simp [hq])).2 hq'⟩
      · rw [i4]
        constructor
        · intro h c hc
          rcases List.mem_cons.1 hc with rfl | hc
          · exact hr
          · rw [← hR c hc]; exact h c hc
        · intro h c hc
          rw [hR c hc]; exact h c (List.mem_cons_of_mem _ hc)

end Pctsp
