import Verif.Spec.Suurballe
import Verif.Lemmas.Walk
import Mathlib.Data.List.Infix

/-!
# The tree of shortest paths
-/

set_option linter.unusedSectionVars false

namespace Pctsp

variable {V : Type} [LinearOrder V] {G : DiGraph V} {s : V} {dij : DijkstraOut V}

/-- `v` is a child of `u` in the tree of shortest paths. -/
structure IsChild (s : V) (dij : DijkstraOut V) (u v : V) : Prop where
  parentKey : u ∈ dij.distKeys
  key : v ∈ dij.distKeys
  ne : v ≠ s
  path : dij.path v = dij.path u ++ [v]

namespace IsDijkstra

theorem exists_parent (h : IsDijkstra G s dij) {v : V} (hv : v ∈ dij.distKeys) (hs : v ≠ s) :
    ∃ u, IsChild s dij u v ∧ v ∈ G.succ u ∧ dij.dist v = dij.dist u + G.weight u v := by
  obtain ⟨u, hu, h1, h2, h3⟩ := h.step v hv hs
  exact ⟨u, ⟨hu, hv, hs, h1⟩, h2, h3⟩

theorem path_last (h : IsDijkstra G s dij) {v : V} (hv : v ∈ dij.distKeys) : ∃ l, dij.path v = l ++ [v] := by
  by_cases hs : v = s
  · subst hs; exact ⟨[], h.pathSource⟩
  · obtain ⟨u, hu, -⟩ := h.exists_parent hv hs; exact ⟨_, hu.path⟩

theorem mem_path_self (h : IsDijkstra G s dij) {v : V} (hv : v ∈ dij.distKeys) : v ∈ dij.path v := by
  obtain ⟨l, hl⟩ := h.path_last hv; simp [hl]

/-- Induction along the tree. -/
theorem tree_induction (h : IsDijkstra G s dij) {P : V → Prop} (h0 : P s)
    (h1 : ∀ u v, IsChild s dij u v → v ∈ G.succ u → dij.dist v = dij.dist u + G.weight u v → P u → P v) :
    ∀ v ∈ dij.distKeys, P v := by
  have : ∀ (n : Nat) (v : V), v ∈ dij.distKeys → (dij.path v).length ≤ n → P v := by
    intro n
    induction n with
    | zero => intro v hv hn; obtain ⟨l, hl⟩ := h.path_last hv; simp [hl] at hn
    | succ n ih =>
      intro v hv hn
      by_cases hs : v = s
      · rw [hs]; exact h0
      · obtain ⟨u, hu, h2, h3⟩ := h.exists_parent hv hs
        refine h1 u v hu h2 h3 (ih u hu.parentKey ?_)
        have := congrArg List.length hu.path
        simp at this; omega
  exact fun v hv => this _ v hv le_rfl

theorem prefix_of_mem (h : IsDijkstra G s dij) {v : V} (hv : v ∈ dij.distKeys) :
    ∀ x ∈ dij.path v, x ∈ dij.distKeys ∧ dij.path x <+: dij.path v := by
  refine h.tree_induction (P := fun v => ∀ x ∈ dij.path v, x ∈ dij.distKeys ∧ dij.path x <+: dij.path v) ?_ ?_ v hv
  · intro x hx
    rw [h.pathSource] at hx
    simp only [List.mem_singleton] at hx
    subst hx
    exact ⟨h.source, List.prefix_rfl⟩
  · intro u v huv _ _ ih x hx
    rw [huv.path, List.mem_append, List.mem_singleton] at hx
    rcases hx with hx | rfl
    · obtain ⟨h1, h2⟩ := ih x hx
      exact ⟨h1, h2.trans (by rw [huv.path]; exact List.prefix_append _ _)⟩
    · exact ⟨huv.key, List.prefix_rfl⟩

theorem key_of_mem (h : IsDijkstra G s dij) {v x : V} (hv : v ∈ dij.distKeys) (hx : x ∈ dij.path v) : x ∈ dij.distKeys :=
  (h.prefix_of_mem hv x hx).1

theorem path_trans (h : IsDijkstra G s dij) {x y z : V} (hz : z ∈ dij.distKeys) (h1 : x ∈ dij.path y) (h2 : y ∈ dij.path z) : x ∈ dij.path z :=
  (h.prefix_of_mem hz y h2).2.subset h1

theorem path_antisymm (h : IsDijkstra G s dij) {x y : V} (hx : x ∈ dij.distKeys) (hy : y ∈ dij.distKeys) (h1 : x ∈ dij.path y)
    (h2 : y ∈ dij.path x) : x = y := by
  have e : dij.path x = dij.path y := (h.prefix_of_mem hy x h1).2.eq_of_length
    (le_antisymm (h.prefix_of_mem hy x h1).2.length_le (h.prefix_of_mem hx y h2).2.length_le)
  obtain ⟨l, hl⟩ := h.path_last hx
  obtain ⟨m, hm⟩ := h.path_last hy
  rw [hl, hm] at e
  exact by simpa using (List.append_inj' e rfl).2

theorem path_total (h : IsDijkstra G s dij) {x y z : V} (hz : z ∈ dij.distKeys) (hx : x ∈ dij.path z) (hy : y ∈ dij.path z) :
    x ∈ dij.path y ∨ y ∈ dij.path x := by
  obtain ⟨kx, px⟩ := h.prefix_of_mem hz x hx
  obtain ⟨ky, py⟩ := h.prefix_of_mem hz y hy
  rcases List.prefix_or_prefix_of_prefix px py with p | p
  · exact .inl (p.subset (h.mem_path_self kx))
  · exact .inr (p.subset (h.mem_path_self ky))

theorem source_mem_path (h : IsDijkstra G s dij) {v : V} (hv : v ∈ dij.distKeys) : s ∈ dij.path v := by
  refine h.tree_induction (P := fun v => s ∈ dij.path v) (by simp [h.pathSource]) ?_ v hv
  intro u v huv _ _ ih
  rw [huv.path]; simp [ih]

theorem path_source_only (h : IsDijkstra G s dij) {x : V} (hx : x ∈ dij.path s) : x = s := by
  rw [h.pathSource] at hx; simpa using hx

end IsDijkstra

namespace IsChild

theorem mem_path_iff {u v x : V} (hc : IsChild s dij u v) : x ∈ dij.path v ↔ x ∈ dij.path u ∨ x = v := by
  rw [hc.path]; simp

theorem parent_mem (h : IsDijkstra G s dij) {u v : V} (hc : IsChild s dij u v) : u ∈ dij.path v :=
  hc.mem_path_iff.2 (.inl (h.mem_path_self hc.parentKey))

theorem not_mem (h : IsDijkstra G s dij) {u v : V} (hc : IsChild s dij u v) : v ∉ dij.path u := by
  intro hm
  have := (h.prefix_of_mem hc.parentKey v hm).2.length_le
  rw [hc.path] at this
  simp at this
  omega

theorem ne_parent (h : IsDijkstra G s dij) {u v : V} (hc : IsChild s dij u v) : u ≠ v := by
  rintro rfl; exact hc.not_mem h (h.mem_path_self hc.key)

theorem unique (h : IsDijkstra G s dij) {u w v : V} (hc : IsChild s dij u v) (hd : IsChild s dij w v) : u = w := by
  have e := hc.path.symm.trans hd.path
  have e := List.append_cancel_right e
  obtain ⟨l, hl⟩ := h.path_last hc.parentKey
  obtain ⟨m, hm⟩ := h.path_last hd.parentKey
  rw [hl, hm] at e
  exact by simpa using (List.append_inj' e rfl).2

/-- The paths of two children of the same vertex through which the same vertex can be reached agree. -/
theorem eq_of_mem (h : IsDijkstra G s dij) {u x y z : V} (hx : IsChild s dij u x) (hy : IsChild s dij u y) (hz : z ∈ dij.distKeys)
    (h1 : x ∈ dij.path z) (h2 : y ∈ dij.path z) : x = y := by
  have key : ∀ {x y : V}, IsChild s dij u x → IsChild s dij u y → x ∈ dij.path y → x = y := by
    intro x y hx hy h3
    rcases hy.mem_path_iff.1 h3 with h4 | h4
    · exact absurd h4 (hx.not_mem h)
    · exact h4
  rcases h.path_total hz h1 h2 with h3 | h3
  · exact key hx hy h3
  · exact (key hy hx h3).symm

end IsChild

namespace IsDijkstra

theorem path_nodup (h : IsDijkstra G s dij) {v : V} (hv : v ∈ dij.distKeys) : (dij.path v).Nodup := by
  refine h.tree_induction (P := fun v => (dij.path v).Nodup) (by simp [h.pathSource]) ?_ v hv
  intro u v huv _ _ ih
  rw [huv.path, List.nodup_append]
  refine ⟨ih, by simp, ?_⟩
  rintro a ha b hb rfl
  simp only [List.mem_singleton] at hb
  subst hb
  exact huv.not_mem h ha

/-- Between a vertex and a proper descendant there is a child. -/
theorem exists_child (h : IsDijkstra G s dij) {q a : V} (ha : a ∈ dij.distKeys) : q ∈ dij.path a → q ≠ a →
    ∃ y, IsChild s dij q y ∧ y ∈ dij.path a := by
  refine h.tree_induction (P := fun a => q ∈ dij.path a → q ≠ a → ∃ y, IsChild s dij q y ∧ y ∈ dij.path a) ?_ ?_ a ha
  · intro h1 h2; exact absurd (h.path_source_only h1) h2
  · intro u v huv _ _ ih h1 h2
    rcases huv.mem_path_iff.1 h1 with h1 | h1
    · by_cases hq : q = u
      · subst hq; exact ⟨v, huv, h.mem_path_self huv.key⟩
      · obtain ⟨y, hy, hy2⟩ := ih h1 hq
        exact ⟨y, hy, huv.mem_path_iff.2 (.inl hy2)⟩
    · exact absurd h1 h2

theorem parent_eq (h : IsDijkstra G s dij) {u v : V} (hc : IsChild s dij u v) : parentInTree dij.path v = some u := by
  obtain ⟨l, hl⟩ := h.path_last hc.parentKey
  rw [parentInTree, hc.path, hl]
  simp

theorem parent_source (h : IsDijkstra G s dij) : parentInTree dij.path s = none := by
  rw [parentInTree, h.pathSource]; simp

theorem mem_treeSucc (h : IsDijkstra G s dij) {u v : V} : v ∈ treeSucc s dij.pathKeys dij.path u ↔ IsChild s dij u v := by
  rw [treeSucc, List.mem_filter, h.perm.mem_iff]
  simp only [decide_eq_true_eq]
  constructor
  · rintro ⟨hv, hs, hp⟩
    obtain ⟨w, hw, -⟩ := h.exists_parent hv (Ne.symm hs)
    rw [h.parent_eq hw] at hp
    injection hp with hp
    rw [← hp]; exact hw
  · intro hc
    exact ⟨hc.key, hc.ne.symm, h.parent_eq hc⟩

theorem treeSucc_nodup (h : IsDijkstra G s dij) (u : V) : (treeSucc s dij.pathKeys dij.path u).Nodup :=
  (h.perm.nodup_iff.2 h.nodup).filter _

end IsDijkstra

end Pctsp
