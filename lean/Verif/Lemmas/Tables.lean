import Verif.Spec.Tables
import Verif.Props.Summary

/-!
# Lemmas on the tables of results
-/

namespace Pctsp

variable {U V P : Type}

theorem summaryStatsOf_ok {t : U → StatsFile} {us : List U} (h : ∀ u ∈ us, ¬ (t u).raises) :
    summaryStatsOf t us = .ok (us.filterMap fun u => (t u).stats?.map fun s => (u, s)) := by
  induction us with
  | nil => rfl
  | cons u us ih =>
    have ih := ih fun v hv => h v (by simp [hv])
    have hu := h u (by simp)
    simp only [summaryStatsOf, List.filterMap_cons]
    cases hs : t u <;> rw [hs] at hu <;> simp_all [StatsFile.raises, StatsFile.stats?, Except.map]

theorem summaryStatsOf_error {t : U → StatsFile} {us : List U} {st : List (U × SummaryStats Ext)} (h : summaryStatsOf t us = .ok st) :
    ∀ u ∈ us, ¬ (t u).raises := by
  induction us generalizing st with
  | nil => simp
  | cons u us ih =>
    simp only [summaryStatsOf] at h
    cases hs : t u with
    | absent => rw [hs] at h; simpa [hs, StatsFile.raises] using ih h
    | corrupt => rw [hs] at h; simpa [hs, StatsFile.raises] using ih h
    | empty => rw [hs] at h; cases h
    | invalid => rw [hs] at h; cases h
    | good s =>
      rw [hs] at h
      cases hr : summaryStatsOf t us with
      | error e => rw [hr] at h; cases h
      | ok st' => simpa [hs, StatsFile.raises] using ih hr

/-- The statistics of a vial are the only ones that are joined with it. -/
theorem filter_stats [DecidableEq U] {t : U → StatsFile} {us : List U} (hd : us.Nodup) {u : U} (hu : u ∈ us) :
    (us.filterMap fun u => (t u).stats?.map fun s => (u, s)).filter (fun x => decide (x.1 = u)) = ((t u).stats?.map fun s => (u, s)).toList := by
  have none_of : ∀ {us : List U}, u ∉ us →
      (us.filterMap fun u => (t u).stats?.map fun s => (u, s)).filter (fun x => decide (x.1 = u)) = [] := by
    intro us h
    rw [List.filter_eq_nil_iff]
    intro x hx
    obtain ⟨y, hy, hxy⟩ := List.mem_filterMap.1 hx
    obtain ⟨s, -, rfl⟩ := Option.map_eq_some_iff.1 hxy
    simp only [decide_eq_true_eq]
    rintro rfl
    exact h hy
  induction us with
  | nil => simp at hu
  | cons x xs ih =>
    rw [List.nodup_cons] at hd
    rw [List.filterMap_cons]
    by_cases hx : x = u
    · subst hx
      cases (t x).stats? <;> simp [none_of hd.1]
    · have hu' : u ∈ xs := by simpa [Ne.symm hx] using hu
      cases (t x).stats? <;> simp [ih hd.2 hu', hx]

theorem RoundsDouble.zero {rnd : Rat → Ext} (h : RoundsDouble rnd) : rnd 0 = .fin 0 := by simpa using h.exact 0 (by norm_num)

/-- The gap is zero iff the bounds agree and are not zero. -/
theorem gapOf_eq_zero {rnd : Rat → Ext} (h : RoundsDouble rnd) {l u : Rat} (hl : Bound l) (hu : ∃ m : Int, u = m / 2 ^ 52) :
    gapOf rnd (.fin l) (.fin u) = .fin 0 ↔ u = l ∧ l ≠ 0 := by
  obtain ⟨⟨a, rfl⟩, hb⟩ := hl
  obtain ⟨b, rfl⟩ := hu
  simp only [gapOf, Ext.neg, Ext.add]
  by_cases hab : b = a
  · subst hab
    have h0 : (b : Rat) / 2 ^ 52 + -((b : Rat) / 2 ^ 52) = 0 := by ring
    rw [h0, h.zero]
    by_cases hz : (b : Rat) / 2 ^ 52 = 0 <;> simp [Ext.div, hz, h.zero]
  · have hne : ¬ ((b : Rat) / 2 ^ 52 = a / 2 ^ 52) := by
      rw [div_left_inj' (by norm_num)]; exact_mod_cast hab
    simp only [hne, false_and, iff_false]
    have hx : (1 : Rat) / 2 ^ 52 ≤ |(b : Rat) / 2 ^ 52 + -((a : Rat) / 2 ^ 52)| := by
      have : (b : Rat) / 2 ^ 52 + -((a : Rat) / 2 ^ 52) = ((b - a : Int) : Rat) / 2 ^ 52 := by push_cast; ring
      rw [this, abs_div, abs_of_pos (by norm_num : (0 : Rat) < 2 ^ 52)]
      refine div_le_div_of_nonneg_right ?_ (by norm_num)
      have : (1 : Int) ≤ |b - a| := Int.one_le_abs (sub_ne_zero.2 hab)
      exact_mod_cast this
    generalize (b : Rat) / 2 ^ 52 + -((a : Rat) / 2 ^ 52) = x at hx
    have hk := h.keep 52 (by norm_num) x hx
    cases hr : rnd x with
    | nan => exact absurd hr (h.noNan x)
    | inf s => simp [Ext.div]
    | fin y =>
      have hy := hk y hr
      have hy0 : y ≠ 0 := by rintro rfl; rw [abs_zero] at hy; norm_num at hy
      simp only [Ext.div]
      by_cases hz : (a : Rat) / 2 ^ 52 = 0
      · simp [hz, hy0]
      · rw [if_neg hz]
        intro hc
        have hq : (1 : Rat) / 2 ^ 122 ≤ |y / ((a : Rat) / 2 ^ 52)| := by
          rw [abs_div]
          calc (1 : Rat) / 2 ^ 122 = 1 / 2 ^ 52 / 2 ^ 70 := by norm_num
            _ ≤ |y| / 2 ^ 70 := div_le_div_of_nonneg_right hy (by norm_num)
            _ ≤ |y| / |(a : Rat) / 2 ^ 52| := div_le_div_of_nonneg_left (abs_nonneg y) (abs_pos.2 hz) hb
        have := h.keep 122 (by norm_num) _ hq 0 hc
        norm_num at this

theorem Ext.beq_fin {x : Ext} {q : Rat} : x.beq (.fin q) = true ↔ x = .fin q := by cases x <;> simp [Ext.beq]

theorem groupCount_eq {α κ : Type} [DecidableEq κ] (key : α → Option κ) (flag : α → Bool) (k : κ) (rows : List α) :
    groupCount key flag k rows = rows.countP fun r => decide (key r = some k) && flag r := by
  unfold groupCount groupRows
  induction rows with
  | nil => rfl
  | cons r rs ih =>
    rw [List.filter_cons, List.countP_cons, ← ih]
    by_cases h1 : key r = some k <;> cases h2 : flag r <;> simp [h1, h2, Nat.add_comm]

theorem mem_dropDuplicates {α κ : Type} [DecidableEq κ] {key : α → κ} {l : List α} {a : α} (h : a ∈ dropDuplicates key l) : a ∈ l := by
  induction l with
  | nil => simp [dropDuplicates] at h
  | cons x xs ih =>
    simp only [dropDuplicates, List.mem_cons, List.mem_filter] at h
    rcases h with rfl | h
    · simp
    · exact List.mem_cons_of_mem _ (ih h.1)

theorem dropDuplicates_sublist {α κ : Type} [DecidableEq κ] (key : α → κ) (l : List α) : (dropDuplicates key l).Sublist l := by
  induction l with
  | nil => exact List.Sublist.slnil
  | cons x xs ih => exact (List.filter_sublist.trans ih).cons_cons x

/-- The row that is kept for a key is the first one. -/
theorem find_dropDuplicates {α κ : Type} [DecidableEq κ] (key : α → κ) (l : List α) (k : κ) :
    (dropDuplicates key l).find? (fun a => decide (key a = k)) = l.find? fun a => decide (key a = k) := by
  induction l with
  | nil => rfl
  | cons x xs ih =>
    simp only [dropDuplicates, List.find?_cons]
    by_cases h : key x = k
    · simp [h]
    · simp only [h, decide_false]
      rw [← ih, List.find?_filter]
      congr 1
      funext a
      by_cases h2 : key a = k
      · subst h2; simp [Ne.symm h]
      · simp [h2]

theorem dropDuplicates_nodup {α κ : Type} [DecidableEq κ] (key : α → κ) (l : List α) : ((dropDuplicates key l).map key).Nodup := by
  induction l with
  | nil => simp [dropDuplicates]
  | cons x xs ih =>
    simp only [dropDuplicates, List.map_cons, List.nodup_cons]
    refine ⟨?_, ih.sublist (List.filter_sublist.map key)⟩
    simp only [List.mem_map, List.mem_filter, decide_eq_true_eq, not_exists, not_and]
    exact fun a ha => ha.2

end Pctsp
