import Verif.Model.TablesDir

/-!
# What a run of several commands for tables does to each file
-/

namespace Pctsp

variable {T : Type} (fault : TableFault) (source : TableName → Except TableFault T)

/-- A single command if the directory exists. -/
theorem tableCmd_exists (t : TableName) (p : Bool) (f : TableName → Option T) :
    tableCmd fault source t ⟨p, some f⟩ =
      match source t with
      | .error e => (⟨p, some f⟩, some e)
      | .ok text => if t.2 = .heuristics then (⟨p, some f⟩, none) else (⟨p, some fun t' => if t' = t then some text else f t'⟩, none) := by
  obtain ⟨b, k⟩ := t
  cases h : source (b, k) <;> cases k <;> simp [tableCmd, h, TexDir.mkdir, TexDir.write]

/-- Several commands if the directory exists. -/
theorem tableSteps_exists (ts : List TableName) (hn : ts.Nodup) (p : Bool) (f : TableName → Option T) :
    ∃ f', (tableSteps fault source ts ⟨p, some f⟩).1 = ⟨p, some f'⟩ ∧
      (∀ t ∉ ts, f' t = f t) ∧
      (∀ pre t post, ts = pre ++ t :: post → t.2 ≠ .heuristics → ∀ text, source t = .ok text → (∀ u ∈ pre, source u ≠ .error .other) → f' t = some text) ∧
      (∀ pre t post, ts = pre ++ t :: post → (t.2 = .heuristics ∨ (∃ e, source t = .error e) ∨ ∃ u ∈ pre, source u = .error .other) → f' t = f t) ∧
      ((tableSteps fault source ts ⟨p, some f⟩).2 = true ↔ ∀ t ∈ ts, source t ≠ .error .other) := by
  induction ts generalizing f with
  | nil => exact ⟨f, rfl, by simp, by simp, by simp, by simp [tableSteps]⟩
  | cons t ts ih =>
    obtain ⟨ht, hn'⟩ := List.nodup_cons.1 hn
    -- the files after the first command, if it does not end the loop
    have step : ∀ g : TableName → Option T, (∀ t' ≠ t, g t' = f t') → source t ≠ .error .other →
        (∀ text, source t = .ok text → t.2 ≠ .heuristics → g t = some text) →
        ((t.2 = .heuristics ∨ ∃ e, source t = .error e) → g t = f t) →
        tableSteps fault source (t :: ts) ⟨p, some f⟩ = tableSteps fault source ts ⟨p, some g⟩ →
        ∃ f', (tableSteps fault source (t :: ts) ⟨p, some f⟩).1 = ⟨p, some f'⟩ ∧
          (∀ t' ∉ t :: ts, f' t' = f t') ∧
          (∀ pre t' post, t :: ts = pre ++ t' :: post → t'.2 ≠ .heuristics → ∀ text, source t' = .ok text → (∀ u ∈ pre, source u ≠ .error .other) → f' t' = some text) ∧
          (∀ pre t' post, t :: ts = pre ++ t' :: post → (t'.2 = .heuristics ∨ (∃ e, source t' = .error e) ∨ ∃ u ∈ pre, source u = .error .other) → f' t' = f t') ∧
          ((tableSteps fault source (t :: ts) ⟨p, some f⟩).2 = true ↔ ∀ t' ∈ t :: ts, source t' ≠ .error .other) := by
      intro g h1 h2 h3 h4 h5
      rw [h5]
      obtain ⟨f', i1, i2, i3, i4, i5⟩ := ih hn' g
      refine ⟨f', i1, ?_, ?_, ?_, ?_⟩
      · intro t' ht'
        simp only [List.mem_cons, not_or] at ht'
        rw [i2 t' ht'.2, h1 t' ht'.1]
      · intro pre t' post hts hk text htext hpre
        cases pre with
        | nil =>
          simp only [List.nil_append, List.cons.injEq] at hts
          obtain ⟨rfl, rfl⟩ := hts
          rw [i2 t ht, h3 text htext hk]
        | cons u pre =>
          simp only [List.cons_append, List.cons.injEq] at hts
          exact i3 pre t' post hts.2 hk text htext fun u hu => hpre u (by simp [hu])
      · intro pre t' post hts hor
        cases pre with
        | nil =>
          simp only [List.nil_append, List.cons.injEq] at hts
          obtain ⟨rfl, rfl⟩ := hts
          rw [i2 t ht]
          refine h4 ?_
          rcases hor with h | h | ⟨u, hu, -⟩
          · exact .inl h
          · exact .inr h
          · cases hu
        | cons u pre =>
          simp only [List.cons_append, List.cons.injEq] at hts
          have hne : t' ≠ t := by
            rintro rfl
            exact ht (by rw [hts.2]; simp)
          rw [i4 pre t' post hts.2 ?_, h1 t' hne]
          rcases hor with h | h | ⟨w, hw, hw'⟩
          · exact .inl h
          · exact .inr (.inl h)
          · rcases List.mem_cons.1 hw with rfl | hw
            · rw [← hts.1] at hw'; exact absurd hw' h2
            · exact .inr (.inr ⟨w, hw, hw'⟩)
      · rw [i5]
        simp only [List.mem_cons, forall_eq_or_imp, h2, ne_eq, not_false_eq_true, true_and]
    cases hs : source t with
    | error e =>
      cases e with
      | notFound =>
        refine step f (fun _ _ => rfl) (by simp [hs]) (by simp [hs]) (fun _ => rfl) ?_
        rw [tableSteps, tableCmd_exists, hs]
      | other =>
        refine ⟨f, ?_, fun _ _ => rfl, ?_, fun _ _ _ _ _ => rfl, ?_⟩
        · rw [tableSteps, tableCmd_exists, hs]
        · intro pre t' post hts hk text htext hpre
          cases pre with
          | nil =>
            simp only [List.nil_append, List.cons.injEq] at hts
            rw [← hts.1, hs] at htext; cases htext
          | cons u pre =>
            simp only [List.cons_append, List.cons.injEq] at hts
            exact absurd hs (hts.1 ▸ hpre u (by simp))
        · rw [tableSteps, tableCmd_exists, hs]
          simp only [Bool.false_eq_true, false_iff, not_forall]
          exact ⟨t, by simp, by simp [hs]⟩
    | ok text =>
      by_cases hk : t.2 = .heuristics
      · refine step f (fun _ _ => rfl) (by simp [hs]) (fun _ _ h => absurd hk h) (fun _ => rfl) ?_
        rw [tableSteps, tableCmd_exists, hs]
        simp only [if_pos hk]
      · refine step (fun t' => if t' = t then some text else f t') (fun t' h => if_neg h) (by simp [hs]) ?_ ?_ ?_
        · intro text' h _
          rw [hs] at h; cases h
          exact if_pos rfl
        · rintro (h | ⟨e, h⟩)
          · exact absurd h hk
          · rw [hs] at h; cases h
        · rw [tableSteps, tableCmd_exists, hs]
          simp only [if_neg hk]

end Pctsp
