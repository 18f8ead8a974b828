import Verif.Spec.Lab
import Verif.Lemmas.Solve
import Verif.Lemmas.Renaming
import Verif.Lemmas.DisjointMap

/-!
# Lemmas about the numbers that are reported
-/

set_option linter.unusedSectionVars false

namespace Pctsp

variable {F V : Type} [DecidableEq V]

theorem forall₂_sameEdge_trans {ps qs rs : List (V × V)} (h : List.Forall₂ SameEdge ps qs) (h' : List.Forall₂ SameEdge qs rs) :
    List.Forall₂ SameEdge ps rs := by
  induction h generalizing rs with
  | nil => exact h'
  | cons h1 _ ih =>
    cases h' with
    | cons h2 h3 => exact .cons (h1.trans h2) (ih h3)

/-- A list of edges that is reordered and redirected twice. -/
theorem EdgesOfTour.reorder {t : List V} {ps qs qs' : List (V × V)} (h : EdgesOfTour t ps) (h1 : qs'.Perm ps) (h2 : List.Forall₂ SameEdge qs qs') :
    EdgesOfTour t qs := by
  obtain ⟨rs, h3, h4⟩ := h
  obtain ⟨rs', h5, h6⟩ := List.perm_comp_forall₂ h1 h4
  exact ⟨rs', h6.trans h3, forall₂_sameEdge_trans h2 h5⟩

theorem EdgesOfTour.mem {t : List V} {ps : List (V × V)} (h : EdgesOfTour t ps) {p : V × V} (hp : p ∈ ps) :
    ∃ q ∈ consec t, SameEdge p q := by
  obtain ⟨qs, h1, h2⟩ := h
  obtain ⟨q, hq, hpq⟩ := forall₂_left_mem h2 hp
  exact ⟨q, h1.mem_iff.1 hq, hpq⟩

theorem EdgesOfTour.adj {es : List (V × V)} {root : V} {t : List V} {ps : List (V × V)} (h : EdgesOfTour t ps) (ht : IsTourIn es root t) :
    ∀ p ∈ ps, AdjIn es p.1 p.2 := by
  intro p hp
  obtain ⟨q, hq, hpq⟩ := h.mem hp
  have := ht.walk q hq
  rcases hpq with rfl | rfl
  · exact this
  · exact this.symm

theorem exists_consec {l : List V} {z x : V} (h : x ∈ l) : ∃ y, (x, y) ∈ consec (l ++ [z]) := by
  induction l with
  | nil => cases h
  | cons a l ih =>
    rcases List.mem_cons.1 h with rfl | h
    · cases l with
      | nil => exact ⟨z, by simp [consec]⟩
      | cons b l => exact ⟨b, by simp [consec]⟩
    · obtain ⟨y, hy⟩ := ih h
      refine ⟨y, ?_⟩
      cases l with
      | nil => cases h
      | cons b l =>
        simp only [consec, List.cons_append, List.tail_cons, List.zip_cons_cons] at hy ⊢
        exact List.mem_cons_of_mem _ hy

/-- The ends of the edges of a closed walk are its vertices. -/
theorem EdgesOfTour.ends {es : List (V × V)} {root : V} {t : List V} {ps : List (V × V)} (h : EdgesOfTour t ps) (ht : IsTourIn es root t) :
    (ps.flatMap fun e => [e.1, e.2]).dedup.Perm t.dropLast := by
  refine (List.perm_ext_iff_of_nodup (List.nodup_dedup _) ht.nodup).2 fun x => ?_
  obtain ⟨m, rfl⟩ := ht.shape
  have hmem : ∀ x, x ∈ (root :: (m ++ [root])).dropLast ↔ x ∈ root :: (m ++ [root]) := by
    intro x
    rw [← List.cons_append, List.dropLast_concat]
    simp only [List.mem_cons, List.cons_append, List.mem_append, List.not_mem_nil, or_false]
    constructor
    · rintro (h | h)
      · exact .inl h
      · exact .inr (.inl h)
    · rintro (h | h | h)
      · exact .inl h
      · exact .inr h
      · exact .inl h
  rw [List.mem_dedup, List.mem_flatMap]
  constructor
  · rintro ⟨p, hp, hx⟩
    obtain ⟨q, hq, hpq⟩ := h.mem hp
    obtain ⟨h1, h2⟩ := consec_mem hq
    rw [hmem]
    simp only [List.mem_cons, List.not_mem_nil, or_false] at hx
    rcases hpq with rfl | rfl <;> rcases hx with rfl | rfl <;> assumption
  · intro hx
    rw [← List.cons_append, List.dropLast_concat] at hx
    obtain ⟨y, hy⟩ := exists_consec (z := root) hx
    obtain ⟨qs, h1, h2⟩ := h
    obtain ⟨p, hp, hpq⟩ := forall₂_mem_right h2 (h1.mem_iff.2 hy)
    refine ⟨p, hp, ?_⟩
    rcases hpq with rfl | rfl <;> simp

theorem sumRes_eq {β : Type} {f : β → Res Int} {g : β → Int} {l : List β} (h : ∀ x ∈ l, f x = .ok (g x)) : sumRes f l = .ok (l.map g).sum := by
  have : mapRes f l = .ok (l.map g) := by
    refine mapRes_forall₂ ?_
    rw [List.forall₂_map_right_iff, List.forall₂_same]
    exact h
  rw [sumRes, this]
  rfl

theorem edgeCost_eq {es : List (V × V)} {costs : List ((V × V) × Int)} {prizes : List (V × Int)} {w : V → V → Int} {π : V → Int}
    (h : Describes es costs prizes w π) {x y : V} (ha : AdjIn es x y) : edgeCost costs (x, y) = .ok (w x y) := by
  have hex : ∃ e ∈ es, SameEdge e (x, y) := by
    rcases ha with ha | ha
    · exact ⟨_, ha, .inl rfl⟩
    · exact ⟨_, ha, .inr rfl⟩
  obtain ⟨e, he, hs⟩ := hex
  obtain ⟨p, c, hp, hs'⟩ := h.allCosts e he
  rw [edgeCost]
  cases hf : costs.find? fun c => decide (c.1 = (x, y) ∨ c.1 = (y, x)) with
  | none =>
    have := List.find?_eq_none.1 hf (p, c) hp
    exact absurd (hs'.trans hs) (by simpa [SameEdge] using this)
  | some q =>
    obtain ⟨q, d⟩ := q
    have h1 := (h.costOk q d (List.mem_of_find?_eq_some hf)).1
    have h2 := List.find?_some hf
    simp only [decide_eq_true_eq] at h2
    simp only
    rcases h2 with rfl | rfl
    · rw [h1]
    · rw [h1, h.symm]

theorem vertexPrize_eq {es : List (V × V)} {costs : List ((V × V) × Int)} {prizes : List (V × Int)} {w : V → V → Int} {π : V → Int}
    (h : Describes es costs prizes w π) {x : V} (hx : x ∈ endpoints es) : vertexPrize prizes x = .ok (π x) := by
  obtain ⟨c, hc⟩ := h.allPrizes x hx
  rw [vertexPrize, dictGet]
  cases hf : prizes.find? fun e => decide (e.1 = x) with
  | none =>
    have := List.find?_eq_none.1 hf (x, c) hc
    simp at this
  | some q =>
    obtain ⟨q, d⟩ := q
    have h1 := h.prizeOk q d (List.mem_of_find?_eq_some hf)
    have h2 := List.find?_some hf
    simp only [decide_eq_true_eq] at h2
    subst h2
    simp [h1.1]

theorem AdjIn.endpoints {es : List (V × V)} {x y : V} (h : AdjIn es x y) : x ∈ endpoints es ∧ y ∈ endpoints es := by
  unfold Pctsp.endpoints
  rcases h with h | h <;> exact ⟨List.mem_flatMap.2 ⟨_, h, by simp⟩, List.mem_flatMap.2 ⟨_, h, by simp⟩⟩

/-- What is reported of the edges of a tour. -/
theorem makeResult_tour {G : LabGraph V} {w : V → V → Int} {π : V → Int} {root : V} (hG : G.Ok w π) (hno : ∀ e ∈ G.edges, e.1 ≠ e.2)
    {reorder : List (V × V) → Option (List (V × V))} (hr : ReorderOk reorder) {t : List V} (ht : IsTourIn G.edges root t) {ps : List (V × V)}
    (hps : EdgesOfTour t ps) : ∃ r, makeResult reorder G ps = .ok r ∧ Reports w π t r := by
  have hadj := hps.adj ht
  have hne : ∀ {x y}, AdjIn G.edges x y → x ≠ y := by
    rintro x y (h | h)
    · exact hno _ h
    · exact (hno _ h).symm
  have hfil : (ps.filter fun e => decide (e.1 ≠ e.2)) = ps := by
    rw [List.filter_eq_self]
    intro p hp
    simpa using hne (hadj p hp)
  have hq : EdgesOfTour t ((reorder ps).getD ps) := by
    cases h : reorder ps with
    | none => exact hps
    | some qs =>
      obtain ⟨qs', h1, h2⟩ := hr _ _ h
      exact hps.reorder h1 h2
  have hadj' := hq.adj ht
  refine ⟨⟨_, _, _⟩, ?_, hq, rfl, rfl⟩
  rw [makeResult]
  simp only [hfil]
  rw [sumRes_eq (g := fun p => w p.1 p.2) fun p hp => edgeCost_eq hG.describes (hadj' p hp), sumRes_eq (g := π)]
  · simp only [Res.ok_bind]
    rw [((hq.ends ht).map π).sum_eq, hq.sum hG.describes.symm]
    rfl
  · intro x hx
    rw [List.mem_dedup, List.mem_flatMap] at hx
    obtain ⟨p, hp, hx⟩ := hx
    have := (hadj' p hp).endpoints
    simp only [List.mem_cons, List.not_mem_nil, or_false] at hx
    rcases hx with rfl | rfl
    · exact vertexPrize_eq hG.describes this.1
    · exact vertexPrize_eq hG.describes this.2

/-- What is reported if there are no edges. -/
theorem makeResult_nil (G : LabGraph V) {reorder : List (V × V) → Option (List (V × V))} (hr : ReorderOk reorder) :
    ∃ r, makeResult reorder G [] = .ok r ∧ ReportsNothing r := by
  have : (reorder []).getD [] = [] := by
    cases h : reorder [] with
    | none => rfl
    | some qs =>
      obtain ⟨qs', h1, h2⟩ := hr _ _ h
      rw [h1.eq_nil] at h2
      cases h2
      rfl
  refine ⟨⟨0, 0, []⟩, ?_, rfl, rfl, rfl⟩
  rw [makeResult]
  simp only [List.filter_nil, this]
  rfl

end Pctsp
