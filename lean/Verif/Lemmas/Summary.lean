import Verif.Lemmas.BatchMissing

/-!
# Lemmas on reading the results of an experiment
-/

namespace Pctsp

variable {U V P : Type} [DecidableEq U] {vials : List (LabVial U P)}

@[simp] theorem ResultFile.result?_good (r : StoredResult U V) : (ResultFile.good r).result? = some r := rfl
@[simp] theorem ResultFile.result?_absent : (ResultFile.absent : ResultFile U V).result? = none := rfl
@[simp] theorem ResultFile.result?_corrupt : (ResultFile.corrupt : ResultFile U V).result? = none := rfl
@[simp] theorem ResultFile.result?_invalid : (ResultFile.invalid : ResultFile U V).result? = none := rfl

omit [DecidableEq U] in
theorem readResults_eq {s : Store U V} {vials : List (LabVial U P)} {rs : List (StoredResult U V)} (h : readResults s vials = .ok rs) :
    rs = vials.filterMap fun v => (s v.uuid).result? := by
  induction vials generalizing rs with
  | nil => cases h; rfl
  | cons v vs ih =>
    have key : ∀ {r : StoredResult U V}, (readResults s vs).map (r :: ·) = .ok rs ↔ ∃ rs', readResults s vs = .ok rs' ∧ r :: rs' = rs := by
      intro r; cases readResults s vs <;> simp [Except.map]
    simp only [readResults] at h
    cases hs : s v.uuid with
    | absent => rw [hs] at h; simp only [List.filterMap_cons, hs, ResultFile.result?_good, ResultFile.result?_absent, ResultFile.result?_corrupt]; exact ih h
    | corrupt => rw [hs] at h; simp only [List.filterMap_cons, hs, ResultFile.result?_good, ResultFile.result?_absent, ResultFile.result?_corrupt]; exact ih h
    | invalid => rw [hs] at h; cases h
    | good r =>
      rw [hs] at h
      obtain ⟨rs', h1, rfl⟩ := key.1 h
      simp only [List.filterMap_cons, hs, ResultFile.result?_good, ResultFile.result?_absent, ResultFile.result?_corrupt]
      rw [ih h1]

omit [DecidableEq U] in
theorem readResults_ok {s : Store U V} {vials : List (LabVial U P)} (h : ∀ v ∈ vials, s v.uuid ≠ .invalid) : ∃ rs, readResults s vials = .ok rs := by
  induction vials with
  | nil => exact ⟨_, rfl⟩
  | cons v vs ih =>
    obtain ⟨rs, hrs⟩ := ih fun w hw => h w (List.mem_cons_of_mem _ hw)
    have hv := h v (by simp)
    simp only [readResults, hrs]
    cases hs : s v.uuid with
    | absent => exact ⟨_, rfl⟩
    | corrupt => exact ⟨_, rfl⟩
    | invalid => exact absurd hs hv
    | good r => exact ⟨_, rfl⟩

/-- The result of a vial is the only one that is joined with it. -/
theorem filter_results {s : Store U V} (hd : Distinct vials) (ho : OwnResults s vials) {v : LabVial U P} (hv : v ∈ vials) :
    (vials.filterMap fun v => (s v.uuid).result?).filter (fun r => decide (r.uuid = v.uuid)) =
      (s v.uuid).result?.toList := by
  induction vials with
  | nil => simp at hv
  | cons x xs ih =>
    have hnot : ∀ y ∈ xs, x.uuid ≠ y.uuid := by
      unfold Distinct at hd
      simp only [List.map_cons, List.nodup_cons, List.mem_map, not_exists, not_and] at hd
      exact fun y hy e => hd.1 y hy e.symm
    have hd' : Distinct xs := by unfold Distinct at hd ⊢; exact (List.nodup_cons.1 hd).2
    have ho' : OwnResults s xs := fun y hy => ho y (List.mem_cons_of_mem _ hy)
    rw [List.filterMap_cons]
    rcases List.mem_cons.1 hv with rfl | hv'
    · have hrest : (xs.filterMap fun v => (s v.uuid).result?).filter (fun r => decide (r.uuid = v.uuid)) = [] := by
        refine List.filter_eq_nil_iff.2 fun r hr => ?_
        obtain ⟨y, hy, he⟩ := List.mem_filterMap.1 hr
        cases hs : s y.uuid <;> rw [hs] at he <;> simp at he
        subst he
        rw [ho' y hy _ hs]
        simpa using (hnot y hy).symm
      cases hs : s v.uuid with
      | absent => simpa using hrest
      | corrupt => simpa using hrest
      | invalid => simpa using hrest
      | good r =>
        have hr := ho v (by simp) r hs
        simp [hr, hrest]
    · have := ih hd' ho' hv'
      cases hs : s x.uuid with
      | absent => simpa using this
      | corrupt => simpa using this
      | invalid => simpa using this
      | good r =>
        have hr := ho x (by simp) r hs
        simp [hr, hnot v hv', this]

end Pctsp
