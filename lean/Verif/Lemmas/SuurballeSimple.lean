import Verif.Lemmas.SuurballeFlow

/-!
# Two walks without a common edge on a graph with split vertices are simple and meet just at their ends
-/

set_option linter.unusedSectionVars false

namespace Pctsp

variable {V : Type} [LinearOrder V] {G : DiGraph V} {s : V}

theorem countP_consec_snd (l : List V) (z : V) : (consec l).countP (fun e => e.2 == z) = l.tail.count z := by
  induction l with
  | nil => simp [consec]
  | cons a l ih =>
    cases l with
    | nil => simp
    | cons b l =>
      rw [consec_cons_cons, List.countP_cons, ih]
      simp only [List.tail_cons, List.count_cons]

theorem countP_consec_fst (l : List V) (z : V) : (consec l).countP (fun e => e.1 == z) = l.dropLast.count z := by
  induction l with
  | nil => simp [consec]
  | cons a l ih =>
    cases l with
    | nil => simp
    | cons b l =>
      rw [consec_cons_cons, List.countP_cons, ih]
      simp only [List.dropLast_cons_cons, List.count_cons]

theorem countP_le_one {l : List (V × V)} {f : V × V → Bool} (hn : l.Nodup) (h : ∀ a ∈ l, ∀ b ∈ l, f a = true → f b = true → a = b) :
    l.countP f ≤ 1 := by
  rw [List.countP_eq_length_filter]
  have h1 : (l.filter f).Nodup := hn.filter _
  have h2 : ∀ a ∈ l.filter f, ∀ b ∈ l.filter f, a = b := by
    intro a ha b hb
    rw [List.mem_filter] at ha hb
    exact h a ha.1 b hb.1 ha.2 hb.2
  match hl : l.filter f with
  | [] => simp
  | [a] => simp
  | a :: b :: m =>
    rw [hl] at h1 h2
    have := h2 a (by simp) b (by simp)
    subst this
    simp at h1

theorem pair_simple {t : V} {p q : List V} (hns : G.Narrow s) (hp : DWalkFrom G s t p) (hq : DWalkFrom G s t q) (hn : (consec p ++ consec q).Nodup)
    (hps : s ∉ p.tail) (hqs : s ∉ q.tail) (hpt : t ∉ p.dropLast) (hqt : t ∉ q.dropLast) :
    p.Nodup ∧ q.Nodup ∧ ∀ z ∈ p, z ∈ q → z = s ∨ z = t := by
  have hcons : ∀ l, DWalkFrom G s t l → ∃ m, l = s :: m := by
    intro l hl
    have := hl.head
    cases l with
    | nil => simp at this
    | cons a m => simp at this; exact ⟨m, by rw [this]⟩
  have hlast : ∀ l, DWalkFrom G s t l → ∃ m, l = m ++ [t] := fun l hl => by
    have := hl.last
    rw [List.getLast?_eq_some_iff] at this
    exact this
  have hs1 : ∀ l, DWalkFrom G s t l → s ∉ l.tail → l.count s ≤ 1 := by
    intro l hl h1
    obtain ⟨m, rfl⟩ := hcons l hl
    rw [List.tail_cons] at h1
    rw [List.count_cons_self, List.count_eq_zero.2 h1]
  have ht1 : ∀ l, DWalkFrom G s t l → t ∉ l.dropLast → l.count t ≤ 1 := by
    intro l hl h1
    obtain ⟨m, rfl⟩ := hlast l hl
    rw [List.dropLast_concat] at h1
    rw [List.count_append, List.count_eq_zero.2 h1]; simp
  have key : ∀ z, z ≠ s → z ≠ t → p.count z + q.count z ≤ 1 := by
    intro z hzs hzt
    have hw : ∀ e ∈ consec p ++ consec q, e.2 ∈ G.succ e.1 := by
      intro e he
      rcases List.mem_append.1 he with he | he
      · exact hp.walk e he
      · exact hq.walk e he
    have e1 : ∀ l, DWalkFrom G s t l → l.count z = l.tail.count z := by
      intro l hl
      obtain ⟨m, rfl⟩ := hcons l hl
      rw [List.tail_cons, List.count_cons_of_ne (Ne.symm hzs)]
    have e2 : ∀ l, DWalkFrom G s t l → l.count z = l.dropLast.count z := by
      intro l hl
      obtain ⟨m, rfl⟩ := hlast l hl
      rw [List.dropLast_concat, List.count_append, (List.count_eq_zero (a := z) (l := [t])).2 (by simpa using hzt), Nat.add_zero]
    rcases hns z hzs with h1 | h1
    · rw [e1 p hp, e1 q hq, ← countP_consec_snd, ← countP_consec_snd, ← List.countP_append]
      refine countP_le_one hn ?_
      rintro ⟨a, b⟩ ha ⟨c, d⟩ hc h2 h3
      simp only [beq_iff_eq] at h2 h3
      subst h2 h3
      rw [h1 a c (hw _ ha) (hw _ hc)]
    · rw [e2 p hp, e2 q hq, ← countP_consec_fst, ← countP_consec_fst, ← List.countP_append]
      refine countP_le_one hn ?_
      rintro ⟨a, b⟩ ha ⟨c, d⟩ hc h2 h3
      simp only [beq_iff_eq] at h2 h3
      subst h2 h3
      rw [h1 b d (hw _ ha) (hw _ hc)]
  refine ⟨?_, ?_, ?_⟩
  · rw [List.nodup_iff_count_le_one]
    intro z
    by_cases hzs : z = s
    · rw [hzs]; exact hs1 p hp hps
    · by_cases hzt : z = t
      · rw [hzt]; exact ht1 p hp hpt
      · have := key z hzs hzt; omega
  · rw [List.nodup_iff_count_le_one]
    intro z
    by_cases hzs : z = s
    · rw [hzs]; exact hs1 q hq hqs
    · by_cases hzt : z = t
      · rw [hzt]; exact ht1 q hq hqt
      · have := key z hzs hzt; omega
  · intro z h1 h2
    by_contra hno
    rw [not_or] at hno
    have h3 := key z hno.1 hno.2
    have h4 := List.count_pos_iff.2 h1
    have h5 := List.count_pos_iff.2 h2
    omega

end Pctsp
