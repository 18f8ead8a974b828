import Verif.Spec.Suurballe
import Mathlib.Data.List.Nodup
import Mathlib.Order.Nat

/-!
# Every graph with non-negative costs has a result of Dijkstra's algorithm
-/

namespace Pctsp

variable {V : Type} [LinearOrder V]

theorem exists_least_of_ne_nil {α : Type} (l : List α) (f : α → Int) (h : l ≠ []) : ∃ a ∈ l, ∀ b ∈ l, f a ≤ f b := by
  induction l with
  | nil => exact absurd rfl h
  | cons x l ih =>
    by_cases hl : l = []
    · exact ⟨x, by simp, by simp [hl]⟩
    · obtain ⟨a, ha, h1⟩ := ih hl
      by_cases hx : f x ≤ f a
      · refine ⟨x, by simp, fun b hb => ?_⟩
        rcases List.mem_cons.1 hb with rfl | hb
        · exact Int.le_refl _
        · exact Int.le_trans hx (h1 b hb)
      · refine ⟨a, by simp [ha], fun b hb => ?_⟩
        rcases List.mem_cons.1 hb with rfl | hb
        · omega
        · exact h1 b hb

/-- The vertices reached so far. -/
structure Grown (G : DiGraph V) (s : V) (d : DijkstraOut V) : Prop where
  nodup : d.distKeys.Nodup
  same : d.pathKeys = d.distKeys
  source : s ∈ d.distKeys
  pathSource : d.path s = [s]
  distSource : d.dist s = 0
  step : ∀ v ∈ d.distKeys, v ≠ s → ∃ u ∈ d.distKeys, d.path v = d.path u ++ [v] ∧ v ∈ G.succ u ∧ d.dist v = d.dist u + G.weight u v
  inside : ∀ u ∈ d.distKeys, ∀ v ∈ G.succ u, v ∈ d.distKeys → d.dist v ≤ d.dist u + G.weight u v
  border : ∀ x ∈ d.distKeys, ∀ u ∈ d.distKeys, ∀ v ∈ G.succ u, v ∉ d.distKeys → d.dist x ≤ d.dist u + G.weight u v

theorem Grown.next {G : DiGraph V} (hG : G.WF) {s : V} {d : DijkstraOut V} (h : Grown G s d) {u v : V} (hu : u ∈ d.distKeys) (huv : v ∈ G.succ u)
    (hv : v ∉ d.distKeys) (hmin : ∀ u' ∈ d.distKeys, ∀ v' ∈ G.succ u', v' ∉ d.distKeys → d.dist u + G.weight u v ≤ d.dist u' + G.weight u' v') :
    Grown G s ⟨d.distKeys ++ [v], setAt d.dist v (d.dist u + G.weight u v), d.distKeys ++ [v], setAt d.path v (d.path u ++ [v])⟩ := by
  have old : ∀ {β : Type} (f : V → β) (b : β) {x : V}, x ∈ d.distKeys → setAt f v b x = f x := by
    intro β f b x hx
    have : x ≠ v := by rintro rfl; exact hv hx
    simp [setAt, this]
  have new : ∀ {β : Type} (f : V → β) (b : β), setAt f v b v = b := by intro β f b; simp [setAt]
  have hs : s ∈ d.distKeys := h.source
  have hnn : 0 ≤ G.weight u v := hG.nonneg _ _ huv
  refine ⟨?_, rfl, by simp [hs], ?_, ?_, ?_, ?_, ?_⟩
  · exact List.nodup_append'.2 ⟨h.nodup, by simp, by simpa using hv⟩
  · simp only; rw [old _ _ hs]; exact h.pathSource
  · simp only; rw [old _ _ hs]; exact h.distSource
  · intro x hx hxs
    rcases List.mem_append.1 hx with hx | hx
    · obtain ⟨y, hy, h1, h2, h3⟩ := h.step x hx hxs
      refine ⟨y, by simp [hy], ?_, h2, ?_⟩
      · simp only; rw [old _ _ hx, old _ _ hy]; exact h1
      · simp only; rw [old _ _ hx, old _ _ hy]; exact h3
    · obtain rfl := List.mem_singleton.1 hx
      refine ⟨u, by simp [hu], ?_, huv, ?_⟩
      · simp only; rw [new, old _ _ hu]
      · simp only; rw [new, old _ _ hu]
  · intro a ha b hab hb
    simp only at ha hb
    rcases List.mem_append.1 ha with ha | ha
    · rcases List.mem_append.1 hb with hb | hb
      · simp only; rw [old _ _ ha, old _ _ hb]; exact h.inside a ha b hab hb
      · obtain rfl := List.mem_singleton.1 hb
        simp only; rw [new, old _ _ ‹a ∈ d.distKeys›]; exact hmin a ‹_› _ hab hv
    · obtain rfl := List.mem_singleton.1 ha
      have hw := hG.nonneg _ _ hab
      rcases List.mem_append.1 hb with hb | hb
      · simp only; rw [new, old _ _ hb]
        have := h.border b hb u hu _ huv hv
        omega
      · obtain rfl := List.mem_singleton.1 hb
        exact absurd hab (hG.noLoop _)
  · intro x hx a ha b hab hb
    have hb1 : b ∉ d.distKeys := fun e => hb (by simp [e])
    have hxv : (setAt d.dist v (d.dist u + G.weight u v)) x ≤ d.dist u + G.weight u v := by
      rcases List.mem_append.1 hx with hx | hx
      · rw [old _ _ hx]; exact h.border x hx u hu v huv hv
      · obtain rfl := List.mem_singleton.1 hx
        rw [new]; exact Int.le_refl _
    rcases List.mem_append.1 ha with ha | ha
    · simp only; rw [old _ _ ha]
      exact Int.le_trans hxv (hmin a ha b hab hb1)
    · obtain rfl := List.mem_singleton.1 ha
      have hw := hG.nonneg _ _ hab
      simp only at hxv ⊢
      rw [new]
      omega

theorem Grown.finish {G : DiGraph V} (hG : G.WF) {s : V} : ∀ (n : Nat) (d : DijkstraOut V), Grown G s d →
    (G.nodes.filter fun v => decide (v ∉ d.distKeys)).length ≤ n → ∃ d', IsDijkstra G s d' := by
  intro n
  induction n with
  | zero =>
    intro d h hn
    have hall : ∀ v ∈ G.nodes, v ∈ d.distKeys := by
      intro v hv
      by_contra hno
      have : v ∈ G.nodes.filter fun v => decide (v ∉ d.distKeys) := by simp [hv, hno]
      rw [List.length_eq_zero_iff.1 (Nat.le_zero.1 hn)] at this
      exact absurd this (by simp)
    exact ⟨d, h.nodup, by rw [h.same], h.source, h.pathSource, h.distSource, h.step,
      fun u hu v hv => ⟨hall v (hG.closed u v hv).2, h.inside u hu v hv (hall v (hG.closed u v hv).2)⟩⟩
  | succ n ih =>
    intro d h hn
    let border := d.distKeys.flatMap fun u => ((G.succ u).filter fun v => decide (v ∉ d.distKeys)).map fun v => (u, v)
    have hb : ∀ u v, (u, v) ∈ border ↔ u ∈ d.distKeys ∧ v ∈ G.succ u ∧ v ∉ d.distKeys := by
      intro u v
      simp [border, List.mem_flatMap]
    by_cases he : border = []
    · refine ⟨d, h.nodup, by rw [h.same], h.source, h.pathSource, h.distSource, h.step, fun u hu v hv => ?_⟩
      have : v ∈ d.distKeys := by
        by_contra hno
        have := (hb u v).2 ⟨hu, hv, hno⟩
        rw [he] at this
        exact absurd this (by simp)
      exact ⟨this, h.inside u hu v hv this⟩
    · obtain ⟨⟨u, v⟩, h1, h2⟩ := exists_least_of_ne_nil border (fun e => d.dist e.1 + G.weight e.1 e.2) he
      obtain ⟨hu, huv, hv⟩ := (hb u v).1 h1
      refine ih _ (h.next hG hu huv hv fun u' hu' v' hv' hn' => h2 (u', v') ((hb u' v').2 ⟨hu', hv', hn'⟩)) ?_
      have hvn : v ∈ G.nodes.filter fun v => decide (v ∉ d.distKeys) := by simp [hv, (hG.closed u v huv).2]
      have hlt : (G.nodes.filter fun x => decide (x ∉ d.distKeys ++ [v])).length < (G.nodes.filter fun v => decide (v ∉ d.distKeys)).length := by
        have e : (G.nodes.filter fun x => decide (x ∉ d.distKeys ++ [v])) =
            (G.nodes.filter fun v => decide (v ∉ d.distKeys)).filter fun x => decide (x ≠ v) := by
          rw [List.filter_filter]
          apply List.filter_congr
          intro x _
          simp [and_comm]
        rw [e]
        exact List.length_filter_lt_length_iff_exists.2 ⟨v, hvn, by simp⟩
      simp only at hlt ⊢
      omega

/-- The specification of Dijkstra's algorithm can be met on every graph. -/
theorem exists_dijkstra {G : DiGraph V} (hG : G.WF) (s : V) : ∃ d, IsDijkstra G s d := by
  refine Grown.finish hG (s := s) _ ⟨[s], fun _ => 0, [s], fun v => [v]⟩ ?_ (Nat.le_refl _)
  refine ⟨by simp, rfl, by simp, rfl, rfl, ?_, ?_, ?_⟩
  · intro v hv hne
    simp at hv
    exact absurd hv hne
  · intro u hu v hv hvk
    simp at hu hvk
    subst hu hvk
    exact absurd hv (hG.noLoop _)
  · intro x hx u hu v hv _
    have := hG.nonneg u v hv
    simpa using this

end Pctsp
