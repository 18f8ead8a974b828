import Verif.Lemmas.DisjointMap
import Verif.Lemmas.CostCover

/-!
# Disjoint paths in the graph of the solver and in the graph of the caller
-/

namespace Pctsp

variable {V : Type} {U : NxGraph V} {cost : V → V → Int} {g : Graph} {gcost : Nat → Int} {name : Nat → V}

/-- The image of a walk without repeated consecutive vertices. -/
theorem NamedIn.walk (hn : NamedIn g gcost name U cost) (hU : U.WF) (hc : ∀ u v, v ∈ U.adj u → cost u v = cost v u) {l es : List Nat}
    (h : WalkEdges g es l) (hl : ∀ p ∈ consec l, p.1 ≠ p.2) : NxWalk U (l.map name) ∧ walkWeight cost (l.map name) = (es.map gcost).sum := by
  induction l generalizing es with
  | nil =>
    cases h
    exact ⟨by simp [NxWalk, consec], by simp [walkWeight, consec]⟩
  | cons a l ih =>
    cases l with
    | nil =>
      cases h
      exact ⟨by simp [NxWalk, consec], by simp [walkWeight, consec]⟩
    | cons b l =>
      unfold WalkEdges at h
      rw [consec_cons_cons] at h hl
      cases h with
      | @cons e _ es' _ he h2 =>
        obtain ⟨h3, h4⟩ := ih h2 fun p hp => hl p (by simp [hp])
        have hab : a ≠ b := hl (a, b) (by simp)
        have h5 : name b ∈ U.adj (name a) ∧ gcost e = cost (name a) (name b) := by
          rcases he with he | he
          · exact hn.edge e a b he hab
          · obtain ⟨k1, k2⟩ := hn.edge e b a he (Ne.symm hab)
            exact ⟨hU.symm _ _ k1, by rw [k2]; exact hc _ _ k1⟩
        constructor
        · intro p hp
          simp only [List.map_cons, consec_cons_cons, List.mem_cons] at hp
          rcases hp with rfl | hp
          · exact h5.1
          · exact h3 p hp
        · simp only [walkWeight, List.map_cons, consec_cons_cons, List.sum_cons] at h4 ⊢
          rw [h4, h5.2]

theorem forall₂_mem_right {α β : Type} {R : α → β → Prop} {l : List α} {m : List β} (h : List.Forall₂ R l m) {y : β} (hy : y ∈ m) : ∃ x ∈ l, R x y := by
  induction h with
  | nil => simp at hy
  | cons hab _ ih =>
    rcases List.mem_cons.1 hy with rfl | hy
    · exact ⟨_, by simp, hab⟩
    · obtain ⟨x, hx, hr⟩ := ih hy
      exact ⟨x, by simp [hx], hr⟩

/-- A pair of disjoint paths to another vertex, named. -/
theorem NamedIn.disjoint (hn : NamedIn g gcost name U cost) (hU : U.WF) (hc : ∀ u v, v ∈ U.adj u → cost u v = cost v u) (hg : SimpleWithLoops g)
    {r v : Nat} {d : Int} (hne : v ≠ r) (h : DisjointPaths g gcost r v d) : ∃ a b, DisjointWalks U cost (name r) (name v) a b d := by
  obtain ⟨a, b, es, fs, n1, n2, h1, h2, rfl⟩ := h
  have hlt : ∀ l es : List Nat, WalkEdges g es (r :: (l ++ [v])) → ∀ x ∈ r :: (l ++ [v]), x < g.n := by
    intro l es h x hx
    have : ∃ y, (x, y) ∈ consec (r :: (l ++ [v])) ∨ (y, x) ∈ consec (r :: (l ++ [v])) := by
      obtain ⟨P, Q, hPQ⟩ := List.append_of_mem hx
      cases Q with
      | cons z Q => exact ⟨z, .inl (mem_consec_iff_split.2 ⟨P, Q, hPQ⟩)⟩
      | nil =>
        cases P using List.reverseRecOn with
        | nil => simp at hPQ
        | append_singleton P z => exact ⟨z, .inr (mem_consec_iff_split.2 ⟨P, [], by simpa using hPQ⟩)⟩
    obtain ⟨y, hy⟩ := this
    have key : ∀ p ∈ consec (r :: (l ++ [v])), p.1 < g.n ∧ p.2 < g.n := by
      intro p hp
      obtain ⟨e, -, he⟩ := forall₂_mem_right h hp
      rcases he with he | he
      · exact hg.wf _ (List.mem_of_getElem? he)
      · exact (hg.wf _ (List.mem_of_getElem? he)).symm
    rcases hy with hy | hy
    · exact (key _ hy).1
    · exact (key _ hy).2
  have hra := hlt a es h1
  have hrb := hlt b fs h2
  simp only [List.nodup_cons, List.nodup_append, List.mem_append, List.mem_cons, not_or] at n1
  obtain ⟨⟨n3, n4, n5⟩, n6, ⟨n7, n8⟩, n9⟩ := n1
  have hs : ∀ l : List Nat, r ∉ l → v ∉ l → l.Nodup → (r :: (l ++ [v])).Nodup := by
    intro l k1 k2 k3
    simp only [List.nodup_cons, List.nodup_append, List.mem_append, List.mem_cons, not_or, List.not_mem_nil, or_false]
    exact ⟨⟨k1, n4⟩, k3, ⟨by simp, by simp⟩, fun x hx y hy => by rintro rfl; exact k2 (hy ▸ hx)⟩
  have hva : v ∉ a := fun hx => n9 v hx v (.inl rfl) rfl
  have hna := hs a n3 hva n6
  have hnb := hs b n5 n7 n8
  have hcons : ∀ l : List Nat, l.Nodup → ∀ p ∈ consec l, p.1 ≠ p.2 := by
    intro l hl p hp
    obtain ⟨P, Q, rfl⟩ := mem_consec_iff_split.1 hp
    have := (List.nodup_cons.1 (List.nodup_append.1 hl).2.1).1
    intro e
    exact this (by simp [e])
  obtain ⟨w1, w2⟩ := hn.walk hU hc h1 (hcons _ hna)
  obtain ⟨w3, w4⟩ := hn.walk hU hc h2 (hcons _ hnb)
  simp only [List.map_cons, List.map_append, List.map_nil] at w1 w2 w3 w4
  have hmap : ∀ l : List Nat, (∀ x ∈ l, x < g.n) → l.Nodup → (l.map name).Nodup := by
    intro l k1 k2
    exact List.Nodup.map_on (fun x hx y hy e => hn.inj x y (k1 x hx) (k1 y hy) e) k2
  refine ⟨a.map name, b.map name, ?_, ?_, ?_, w1, w3, ?_⟩
  · have := hmap (r :: (a ++ b)) (by
      intro x hx
      simp only [List.mem_cons, List.mem_append] at hx
      rcases hx with rfl | hx | hx
      · exact hra _ (by simp)
      · exact hra _ (by simp [hx])
      · exact hrb _ (by simp [hx])) (by
      simp only [List.nodup_cons, List.nodup_append, List.mem_append, not_or]
      exact ⟨⟨n3, n5⟩, n6, n8, fun x hx y hy => n9 x hx y (.inr hy)⟩)
    simpa using this
  · have := hmap (a ++ b ++ [v]) (by
      intro x hx
      simp only [List.mem_cons, List.mem_append, List.not_mem_nil, or_false] at hx
      rcases hx with (hx | hx) | rfl
      · exact hra _ (by simp [hx])
      · exact hrb _ (by simp [hx])
      · exact hra _ (by simp)) (by
      simp only [List.nodup_cons, List.nodup_append, List.mem_append, List.mem_cons, List.not_mem_nil, or_false]
      refine ⟨⟨n6, n8, fun x hx y hy => n9 x hx y (.inr hy)⟩, ⟨by simp, by simp⟩, ?_⟩
      rintro x (hx | hx) y rfl rfl
      · exact hva hx
      · exact n7 hx)
    simpa using this
  · by_contra hno
    simp only [ne_eq, List.map_eq_nil_iff, not_or, not_not] at hno
    obtain ⟨rfl, rfl⟩ := hno
    unfold WalkEdges at h1 h2
    simp only [List.nil_append, consec_cons_cons] at h1 h2
    cases h1 with
    | @cons e _ es' _ he h3 =>
      cases h2 with
      | @cons f _ fs' _ hf h4 =>
        have hef : e ≠ f := fun e' => (List.nodup_append.1 n2).2.2 e (by simp) f (by simp) e'
        have key : ∀ e, EdgeBetween g e r v → (g.edges.map und)[e]? = some (und (r, v)) := by
          rintro e (he | he)
          · simp [he]
          · simp [he, und_eq_iff]
        exact hef (nodup_getElem?_inj hg.simple (key e he) (key f hf))
  · rw [List.map_append, List.sum_append, ← w2, ← w4]

end Pctsp
