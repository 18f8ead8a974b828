import Verif.Lemmas.SuurballeTree
import Verif.Lemmas.Gain
import Mathlib.Logic.Relation
import Mathlib.Algebra.BigOperators.Group.Finset.Basic
import Mathlib.Algebra.BigOperators.Ring.Finset
import Mathlib.Tactic.Linarith
import Mathlib.Tactic.Ring

/-!
# Augmenting walks and pairs of edge-disjoint paths
-/

set_option linter.unusedSectionVars false

namespace Pctsp

variable {V : Type} [LinearOrder V] {G : DiGraph V} {s : V} {dij : DijkstraOut V}

/-- The transformed cost of an edge. -/
abbrev adjCost (G : DiGraph V) (dij : DijkstraOut V) (u v : V) : Int := adjustEdgeCost (G.weight u v) (dij.dist u) (dij.dist v)

theorem adjCost_nonneg (h : IsDijkstra G s dij) {u v : V} (hu : u ∈ dij.distKeys) (hv : v ∈ G.succ u) : 0 ≤ adjCost G dij u v := by
  have := (h.relaxed u hu v hv).2
  simp only [adjCost, adjustEdgeCost]; omega

/-- A child of `u` is a successor, and the edge has transformed cost zero. -/
theorem IsChild.edge (h : IsDijkstra G s dij) {u v : V} (hc : IsChild s dij u v) :
    v ∈ G.succ u ∧ adjCost G dij u v = 0 ∧ dij.dist v = dij.dist u + G.weight u v := by
  obtain ⟨w, hw, h1, h2⟩ := h.exists_parent hc.key hc.ne
  have := hc.unique h hw
  subst this
  refine ⟨h1, ?_, h2⟩
  simp only [adjCost, adjustEdgeCost]; omega

/-- The edge from `a` to `b` is on the path of the tree to `t`. -/
def OnTree (s : V) (dij : DijkstraOut V) (t a b : V) : Prop := IsChild s dij a b ∧ b ∈ dij.path t

/-- A step of an augmenting walk for `t`: an edge that is not on the path to `t`, or an edge of the path backwards. -/
inductive RStep (G : DiGraph V) (s : V) (dij : DijkstraOut V) (t : V) : V → V → Int → Prop
  | fwd {a b : V} : a ∈ dij.distKeys → b ∈ G.succ a → ¬ OnTree s dij t a b → RStep G s dij t a b (adjCost G dij a b)
  | bwd {a b : V} : OnTree s dij t b a → RStep G s dij t a b 0

/-- There is an augmenting walk for `t` from the source to the vertex that costs at most `k`. -/
inductive RR (G : DiGraph V) (s : V) (dij : DijkstraOut V) (t : V) : V → Int → Prop
  | start {k : Int} : 0 ≤ k → RR G s dij t s k
  | step {a b : V} {k c k' : Int} : RR G s dij t a k → RStep G s dij t a b c → k + c ≤ k' → RR G s dij t b k'

theorem RStep.nonneg (h : IsDijkstra G s dij) {t a b : V} {c : Int} (hs : RStep G s dij t a b c) : 0 ≤ c := by
  cases hs with
  | fwd h1 h2 _ => exact adjCost_nonneg h h1 h2
  | bwd _ => exact le_rfl

theorem RR.mono {t v : V} {k k' : Int} (hr : RR G s dij t v k) (hk : k ≤ k') : RR G s dij t v k' := by
  cases hr with
  | start h => exact .start (by omega)
  | step h1 h2 h3 => exact .step h1 h2 (by omega)

theorem RR.key (h : IsDijkstra G s dij) {t v : V} {k : Int} (hr : RR G s dij t v k) : v ∈ dij.distKeys := by
  cases hr with
  | start _ => exact h.source
  | step h1 h2 h3 => cases h2 with
    | fwd h1 h2 _ => exact (h.relaxed _ h1 _ h2).1
    | bwd h1 => exact h1.1.parentKey

/-- The vertex `q` is on the path of the tree between `u` and `w`. -/
def Sep (s : V) (dij : DijkstraOut V) (q u w : V) : Prop :=
  (q ∈ dij.path u ∨ q ∈ dij.path w) ∧ ∀ y, IsChild s dij q y → ¬ (y ∈ dij.path u ∧ y ∈ dij.path w)

/-- Upwards along the path to `t`. -/
theorem RR.up (h : IsDijkstra G s dij) {t v : V} {k : Int} (ht : t ∈ dij.distKeys) (hv : v ∈ dij.path t) (hr : RR G s dij t v k) :
    ∀ a ∈ dij.path v, RR G s dij t a k := by
  have hkey := h.key_of_mem ht hv
  refine h.tree_induction (P := fun v => v ∈ dij.path t → RR G s dij t v k → ∀ a ∈ dij.path v, RR G s dij t a k) ?_ ?_ v hkey hv hr
  · intro _ hr a ha
    rw [h.path_source_only ha]; exact hr
  · intro u v huv _ _ ih hv hr a ha
    rcases huv.mem_path_iff.1 ha with ha | rfl
    · exact ih (h.path_trans ht (huv.parent_mem h) hv) (.step hr (.bwd ⟨huv, hv⟩) (by omega)) a ha
    · exact hr

/-- Downwards to `q`, where the path to `q` leaves the path to `t` at or before `v`. -/
theorem RR.down (h : IsDijkstra G s dij) {t v q : V} {k : Int} (ht : t ∈ dij.distKeys) (hq : q ∈ dij.distKeys) (hv : v ∈ dij.path t)
    (hr : RR G s dij t v k) (hc : ∀ a, a ∈ dij.path q → a ∈ dij.path t → a ∈ dij.path v) : RR G s dij t q k := by
  refine h.tree_induction (P := fun q => (∀ a, a ∈ dij.path q → a ∈ dij.path t → a ∈ dij.path v) → RR G s dij t q k) ?_ ?_ q hq hc
  · intro hc
    exact hr.up h ht hv s (hc s (h.mem_path_self h.source) (h.source_mem_path ht))
  · intro u q huq _ _ ih hc
    by_cases hqt : q ∈ dij.path t
    · exact hr.up h ht hv q (hc q (h.mem_path_self huq.key) hqt)
    · have := ih (fun a ha hat => hc a (huq.mem_path_iff.2 (.inl ha)) hat)
      refine .step this (.fwd huq.parentKey (huq.edge h).1 (fun ho => hqt ho.2)) ?_
      rw [(huq.edge h).2.1]; omega

/-- Downwards to `q` from a vertex below which the path to `q` has no vertex of the path to `t`. -/
theorem RR.descend (h : IsDijkstra G s dij) {t v q : V} {k : Int} (hq : q ∈ dij.distKeys) (hv : v ∈ dij.path q)
    (hr : RR G s dij t v k) (hc : ∀ a, a ∈ dij.path q → a ∈ dij.path t → a ∈ dij.path v) : RR G s dij t q k := by
  refine h.tree_induction (P := fun q => v ∈ dij.path q → (∀ a, a ∈ dij.path q → a ∈ dij.path t → a ∈ dij.path v) → RR G s dij t q k)
    ?_ ?_ q hq hv hc
  · intro hv _
    have := h.path_source_only hv
    subst this; exact hr
  · intro u q huq _ _ ih hv hc
    rcases huq.mem_path_iff.1 hv with hv | rfl
    · have h1 := ih hv (fun a ha hat => hc a (huq.mem_path_iff.2 (.inl ha)) hat)
      refine .step h1 (.fwd huq.parentKey (huq.edge h).1 (fun ho => ?_)) (by rw [(huq.edge h).2.1]; omega)
      exact huq.not_mem h (h.path_trans huq.parentKey (hc q (h.mem_path_self huq.key) ho.2) hv)
    · exact hr

/-- An augmenting walk for `q` gives one for `t` that leads to `q`. -/
theorem RR.change (h : IsDijkstra G s dij) {t q v : V} {k : Int} (ht : t ∈ dij.distKeys) (hq : q ∈ dij.distKeys) (hr : RR G s dij q v k) :
    RR G s dij t v k ∨ RR G s dij t q k := by
  induction hr with
  | start hk => exact .inl (.start hk)
  | @step a b k c k' h1 h2 h3 ih =>
    have hc := h2.nonneg h
    rcases ih with ih | ih
    · cases h2 with
      | fwd ha hb hn =>
        by_cases ho : OnTree s dij t a b
        · right
          have hat : a ∈ dij.path t := h.path_trans ht (ho.1.parent_mem h) ho.2
          refine (ih.down h ht hq hat ?_).mono (by omega)
          intro x hxq hxt
          have hbq : b ∉ dij.path q := fun hb => hn ⟨ho.1, hb⟩
          rcases h.path_total ht hxt ho.2 with h4 | h4
          · rcases ho.1.mem_path_iff.1 h4 with h5 | h5
            · exact h5
            · subst h5; exact absurd hxq hbq
          · exact absurd (h.path_trans hq h4 hxq) hbq
        · exact .inl (.step ih (.fwd ha hb ho) h3)
      | bwd ho =>
        by_cases hat : a ∈ dij.path t
        · exact .inl (.step ih (.bwd ⟨ho.1, hat⟩) h3)
        · right
          refine (ih.descend h hq ho.2 ?_).mono (by omega)
          intro x hxq hxt
          rcases h.path_total hq hxq ho.2 with h4 | h4
          · exact h4
          · exact absurd (h.path_trans ht h4 hxt) hat
    · exact .inr (ih.mono (by omega))

/-- An augmenting walk for `q` and an edge `(p, t)` that is not in the tree give an augmenting walk for `t`, if `q` is between `p` and `t`. -/
theorem RR.extend (h : IsDijkstra G s dij) {p q t : V} {k : Int} (hp : p ∈ dij.distKeys) (ht : t ∈ G.succ p) (hn : ¬ IsChild s dij p t)
    (hsep : Sep s dij q p t) (hr : RR G s dij q q k) : RR G s dij t t (k + adjCost G dij p t) := by
  have htk := (h.relaxed p hp t ht).1
  have hqk := hr.key h
  have h1 : RR G s dij t q k := (hr.change h htk hqk).elim id id
  refine .step (a := p) ?_ (.fwd hp ht fun ho => hn ho.1) le_rfl
  by_cases hqt : q ∈ dij.path t
  · refine h1.down h htk hp hqt ?_
    intro a hap hat
    rcases h.path_total htk hat hqt with h2 | h2
    · exact h2
    · by_cases e : q = a
      · subst e; exact h.mem_path_self hqk
      · obtain ⟨y, hy, hya⟩ := h.exists_child (h.key_of_mem htk hat) h2 e
        exact absurd ⟨h.path_trans hp hya hap, h.path_trans htk hya hat⟩ (hsep.2 y hy)
  · have hqp := hsep.1.resolve_right hqt
    refine h1.descend h hp hqp ?_
    intro a hap hat
    rcases h.path_total hp hap hqp with h2 | h2
    · exact h2
    · exact absurd (h.path_trans htk h2 hat) hqt

/-! ## From an augmenting walk to a pair of paths -/

/-- An augmenting walk with its vertices, the last one first. -/
inductive RPath (G : DiGraph V) (s : V) (dij : DijkstraOut V) (t : V) : List V → Int → Prop
  | start : RPath G s dij t [s] 0
  | step {a b : V} {l : List V} {k c : Int} : RPath G s dij t (a :: l) k → RStep G s dij t a b c → RPath G s dij t (b :: a :: l) (k + c)

theorem RPath.nonneg (h : IsDijkstra G s dij) {t : V} {l : List V} {k : Int} (hr : RPath G s dij t l k) : 0 ≤ k := by
  induction hr with
  | start => exact le_rfl
  | step _ h2 ih => have := h2.nonneg h; omega

theorem RPath.suffix (h : IsDijkstra G s dij) {t b : V} {l B : List V} {k : Int} (hr : RPath G s dij t l k) :
    ∀ A, l = A ++ b :: B → ∃ k' ≤ k, RPath G s dij t (b :: B) k' := by
  induction hr with
  | start =>
    intro A e
    cases A with
    | nil => exact ⟨0, le_rfl, by rw [← List.nil_append (b :: B), ← e]; exact .start⟩
    | cons x A => simp at e
  | @step a c l k d h1 h2 ih =>
    intro A e
    cases A with
    | nil => exact ⟨_, le_rfl, by rw [← List.nil_append (b :: B), ← e]; exact .step h1 h2⟩
    | cons x A =>
      injection e with _ e
      obtain ⟨k', hk, h3⟩ := ih A e
      exact ⟨k', by have := h2.nonneg h; omega, h3⟩

/-- Without repeated vertices. -/
theorem RR.simple (h : IsDijkstra G s dij) {t v : V} {k : Int} (hr : RR G s dij t v k) :
    ∃ l, ∃ k' ≤ k, (v :: l).Nodup ∧ RPath G s dij t (v :: l) k' := by
  induction hr with
  | start hk => exact ⟨[], 0, hk, by simp, .start⟩
  | @step a b k c k' h1 h2 h3 ih =>
    obtain ⟨l, k1, hk, hn, hp⟩ := ih
    by_cases hb : b ∈ a :: l
    · obtain ⟨A, B, e⟩ := List.append_of_mem hb
      obtain ⟨k2, hk2, h4⟩ := hp.suffix h A e
      refine ⟨B, k2, by have := h2.nonneg h; omega, ?_, h4⟩
      rw [e] at hn
      exact (List.nodup_append.1 hn).2.1
    · exact ⟨a :: l, k1 + c, by omega, List.nodup_cons.2 ⟨hb, hn⟩, .step hp h2⟩

/-- 1 if the vertices agree. -/
def ind (a v : V) : Int := if a = v then 1 else 0

/-- How many more of the edges leave the vertex than enter it. -/
def net (E : List (V × V)) (v : V) : Int := (E.map fun e => ind e.1 v - ind e.2 v).sum

/-- The total cost of a list of edges. -/
def edgesWeight (G : DiGraph V) (E : List (V × V)) : Int := (E.map fun e => G.weight e.1 e.2).sum

theorem net_append (E F : List (V × V)) (v : V) : net (E ++ F) v = net E v + net F v := by simp [net]
theorem edgesWeight_append (E F : List (V × V)) : edgesWeight G (E ++ F) = edgesWeight G E + edgesWeight G F := by simp [edgesWeight]

theorem net_consec (a : V) (l : List V) (t v : V) (ht : (a :: l).getLast? = some t) : net (consec (a :: l)) v = ind a v - ind t v := by
  induction l generalizing a with
  | nil => simp at ht; subst ht; simp [net]
  | cons b l ih =>
    rw [consec_cons_cons]
    have := ih b (by simpa using ht)
    simp only [net, List.map_cons, List.sum_cons] at this ⊢
    rw [this]; omega

/-- The edges that an augmenting walk adds and removes. -/
theorem RPath.edges (h : IsDijkstra G s dij) {t : V} {l : List V} {k : Int} (hr : RPath G s dij t l k) : l.Nodup →
    ∃ v l', l = v :: l' ∧ ∃ F B : List (V × V), F.Nodup ∧ B.Nodup ∧
      (∀ e ∈ F, e.1 ∈ dij.distKeys ∧ e.2 ∈ G.succ e.1 ∧ ¬ OnTree s dij t e.1 e.2 ∧ e.2 ∈ l) ∧
      (∀ e ∈ B, OnTree s dij t e.1 e.2 ∧ e.1 ∈ l) ∧ (∀ x, net F x - net B x = ind s x - ind v x) ∧
      edgesWeight G F - edgesWeight G B = k + dij.dist v := by
  induction hr with
  | start =>
    intro _
    refine ⟨s, [], rfl, [], [], by simp, by simp, by simp, by simp, by simp [net], ?_⟩
    simp [edgesWeight, h.distSource]
  | @step a b l k c h1 h2 ih =>
    intro hn
    have hb := (List.nodup_cons.1 hn).1
    obtain ⟨v, l', e, F, B, hF, hB, hF1, hB1, hnet, hw⟩ := ih (List.nodup_cons.1 hn).2
    injection e with e1 e2
    subst e1 e2
    refine ⟨b, a :: l, rfl, ?_⟩
    cases h2 with
    | fwd ha hab ho =>
      refine ⟨(a, b) :: F, B, ?_, hB, ?_, fun e he => ⟨(hB1 e he).1, List.mem_cons_of_mem _ (hB1 e he).2⟩, ?_, ?_⟩
      · exact List.nodup_cons.2 ⟨fun hm => hb (hF1 _ hm).2.2.2, hF⟩
      · intro e he
        rcases List.mem_cons.1 he with rfl | he
        · exact ⟨ha, hab, ho, List.mem_cons_self⟩
        · exact ⟨(hF1 e he).1, (hF1 e he).2.1, (hF1 e he).2.2.1, List.mem_cons_of_mem _ (hF1 e he).2.2.2⟩
      · intro x
        have := hnet x
        simp only [net, List.map_cons, List.sum_cons] at this ⊢
        omega
      · simp only [edgesWeight, List.map_cons, List.sum_cons, adjCost, adjustEdgeCost] at hw ⊢
        omega
    | bwd ho =>
      refine ⟨F, (b, a) :: B, hF, ?_, fun e he => ⟨(hF1 e he).1, (hF1 e he).2.1, (hF1 e he).2.2.1, List.mem_cons_of_mem _ (hF1 e he).2.2.2⟩, ?_, ?_, ?_⟩
      · exact List.nodup_cons.2 ⟨fun hm => hb (hB1 _ hm).2, hB⟩
      · intro e he
        rcases List.mem_cons.1 he with rfl | he
        · exact ⟨ho, List.mem_cons_self⟩
        · exact ⟨(hB1 e he).1, List.mem_cons_of_mem _ (hB1 e he).2⟩
      · intro x
        have := hnet x
        simp only [net, List.map_cons, List.sum_cons] at this ⊢
        omega
      · have := (ho.1.edge h).2.2
        simp only [edgesWeight, List.map_cons, List.sum_cons] at hw ⊢
        omega

/-- A path without repeated vertices along a relation. -/
theorem simple_of_reach {R : V → V → Prop} {a t : V} (hr : Relation.ReflTransGen R a t) :
    ∃ l, (a :: l).Nodup ∧ (a :: l).getLast? = some t ∧ ∀ e ∈ consec (a :: l), R e.1 e.2 := by
  induction hr using Relation.ReflTransGen.head_induction_on with
  | refl => exact ⟨[], by simp, by simp, by simp⟩
  | @head a c hac _ ih =>
    obtain ⟨l, hn, hl, hR⟩ := ih
    by_cases ha : a ∈ c :: l
    · obtain ⟨A, B, e⟩ := List.append_of_mem ha
      rw [e] at hn hl hR
      refine ⟨B, (List.nodup_append.1 hn).2.1, ?_, fun e he => hR e ?_⟩
      · rw [List.getLast?_append] at hl; simpa using hl
      · rw [consec_append]; exact List.mem_append_right _ he
    · refine ⟨c :: l, List.nodup_cons.2 ⟨ha, hn⟩, by simpa using hl, ?_⟩
      intro e he
      rw [consec_cons_cons, List.mem_cons] at he
      rcases he with rfl | he
      · exact hac
      · exact hR e he

theorem sum_net (E : List (V × V)) (X : Finset V) (f : V → Int) (hX : ∀ e ∈ E, e.1 ∈ X ∧ e.2 ∈ X) :
    ∑ v ∈ X, f v * net E v = (E.map fun e => f e.1 - f e.2).sum := by
  induction E with
  | nil => simp [net]
  | cons e E ih =>
    obtain ⟨h1, h2⟩ := hX e List.mem_cons_self
    have ih := ih fun d hd => hX d (List.mem_cons_of_mem _ hd)
    simp only [List.map_cons, List.sum_cons]
    rw [← ih]
    have e1 : ∑ v ∈ X, f v * net (e :: E) v = ∑ v ∈ X, (f v * ind e.1 v - f v * ind e.2 v) + ∑ v ∈ X, f v * net E v := by
      rw [← Finset.sum_add_distrib]
      apply Finset.sum_congr rfl
      intro v _
      simp only [net, List.map_cons, List.sum_cons]; ring
    rw [e1, Finset.sum_sub_distrib]
    simp [ind, h1, h2]

/-- From a list of edges with more edges out of `s` than into it, and balanced elsewhere but at `t`, `t` can be reached. -/
theorem exists_path {E : List (V × V)} {s t : V} {m : Int} (hm : 0 < m) (hnet : ∀ v, net E v = m * (ind s v - ind t v)) :
    Relation.ReflTransGen (fun a b => (a, b) ∈ E) s t := by
  classical
  by_contra hnot
  let S : V → Int := fun v => if Relation.ReflTransGen (fun a b => (a, b) ∈ E) s v then 1 else 0
  let X : Finset V := insert s (insert t ((E.map Prod.fst).toFinset ∪ (E.map Prod.snd).toFinset))
  have hX : ∀ e ∈ E, e.1 ∈ X ∧ e.2 ∈ X := by
    intro e he
    simp only [X, Finset.mem_insert, Finset.mem_union, List.mem_toFinset, List.mem_map]
    exact ⟨.inr (.inr (.inl ⟨e, he, rfl⟩)), .inr (.inr (.inr ⟨e, he, rfl⟩))⟩
  have h1 := sum_net E X S hX
  have h2 : ∑ v ∈ X, S v * net E v = m * (S s - S t) := by
    simp only [hnet]
    have : ∀ v, S v * (m * (ind s v - ind t v)) = m * (S v * ind s v) - m * (S v * ind t v) := by intro v; ring
    simp only [this]
    rw [Finset.sum_sub_distrib, ← Finset.mul_sum, ← Finset.mul_sum]
    have hs : s ∈ X := by simp [X]
    have ht : t ∈ X := by simp [X]
    simp only [ind, mul_ite, mul_one, mul_zero, Finset.sum_ite_eq, hs, ht, if_true]
    ring
  have h3 : S s = 1 := if_pos .refl
  have h4 : S t = 0 := if_neg hnot
  have h5 : (E.map fun e => S e.1 - S e.2).sum ≤ 0 := by
    have : ∀ F : List (V × V), (∀ e ∈ F, e ∈ E) → (F.map fun e => S e.1 - S e.2).sum ≤ 0 := by
      intro F
      induction F with
      | nil => intro _; simp
      | cons e F ih =>
        intro hF
        have h6 := ih fun d hd => hF d (List.mem_cons_of_mem _ hd)
        have h7 : S e.1 - S e.2 ≤ 0 := by
          simp only [S]
          by_cases he : Relation.ReflTransGen (fun a b => (a, b) ∈ E) s e.1
          · rw [if_pos he, if_pos (he.tail (hF e List.mem_cons_self))]; omega
          · rw [if_neg he]; split <;> omega
        simp only [List.map_cons, List.sum_cons]; omega
    exact this E fun e he => he
  rw [← h1, h2, h3, h4] at h5
  omega

theorem filter_split_sum {α : Type} (E : List α) (p : α → Bool) (f : α → Int) :
    (E.map f).sum = ((E.filter p).map f).sum + ((E.filter fun e => !p e).map f).sum := by
  induction E with
  | nil => rfl
  | cons e E ih =>
    cases h : p e <;> simp [h, ih] <;> ring

/-- Removing a sublist of edges. -/
theorem sum_filter_not {E B : List (V × V)} (hE : E.Nodup) (hB : B.Nodup) (hs : ∀ e ∈ B, e ∈ E) (f : V × V → Int) :
    ((E.filter fun e => decide (e ∉ B)).map f).sum = (E.map f).sum - (B.map f).sum := by
  have h1 := filter_split_sum E (fun e => decide (e ∈ B)) f
  have hp : (E.filter fun e => decide (e ∈ B)).Perm B := by
    rw [List.perm_ext_iff_of_nodup (hE.filter _) hB]
    intro e
    simp only [List.mem_filter, decide_eq_true_eq]
    exact ⟨fun h => h.2, fun h => ⟨hs e h, h⟩⟩
  rw [(hp.map f).sum_eq] at h1
  simp only [decide_not]
  omega

theorem edge_nonneg_sum (hg : G.WF) {E : List (V × V)} (hE : ∀ e ∈ E, e.2 ∈ G.succ e.1) : 0 ≤ edgesWeight G E := by
  induction E with
  | nil => simp [edgesWeight]
  | cons e E ih =>
    have h1 := ih fun d hd => hE d (List.mem_cons_of_mem _ hd)
    have h2 := hg.nonneg e.1 e.2 (hE e List.mem_cons_self)
    simp only [edgesWeight, List.map_cons, List.sum_cons] at h1 ⊢
    omega

theorem consec_nodup {l : List V} (h : l.Nodup) : (consec l).Nodup := by
  induction l with
  | nil => simp
  | cons a l ih =>
    cases l with
    | nil => simp
    | cons b l =>
      rw [consec_cons_cons, List.nodup_cons]
      have hn := List.nodup_cons.1 h
      exact ⟨fun hm => hn.1 (mem_of_mem_consec hm).1, ih hn.2⟩

/-- One path out of the edges, and the rest. -/
theorem peel {E : List (V × V)} (hE : E.Nodup) {s t : V} {m : Int} (hm : 0 < m) (hnet : ∀ v, net E v = m * (ind s v - ind t v)) :
    ∃ p E', p.Nodup ∧ p.head? = some s ∧ p.getLast? = some t ∧ (∀ e ∈ consec p, e ∈ E) ∧ E'.Nodup ∧ (∀ e ∈ E', e ∈ E ∧ e ∉ consec p) ∧
      (∀ v, net E' v = (m - 1) * (ind s v - ind t v)) ∧ edgesWeight G E = edgesWeight G (consec p) + edgesWeight G E' := by
  obtain ⟨l, hn, hl, hR⟩ := simple_of_reach (exists_path hm hnet)
  refine ⟨s :: l, E.filter (fun e => decide (e ∉ consec (s :: l))), hn, rfl, hl, fun e he => hR e he, hE.filter _, ?_, ?_, ?_⟩
  · intro e he
    simpa using he
  · intro v
    have := sum_filter_not hE (consec_nodup hn) (fun e he => hR e he) (fun e => ind e.1 v - ind e.2 v)
    rw [net, this]
    have h1 := hnet v
    have h2 := net_consec s l t v hl
    rw [net] at h1 h2
    rw [h1, h2]; ring
  · have := sum_filter_not hE (consec_nodup hn) (fun e he => hR e he) (fun e => G.weight e.1 e.2)
    simp only [edgesWeight] at this ⊢
    rw [this]; ring

/-- An augmenting walk of cost `k` for `t` gives two edge-disjoint paths to `t` that cost at most twice the distance and `k`. -/
theorem RR.pair (hg : G.WF) (h : IsDijkstra G s dij) {t : V} {k : Int} (ht : t ∈ dij.distKeys) (hr : RR G s dij t t k) :
    ∃ c ≤ 2 * dij.dist t + k, EdgeDisjointPair G s t c := by
  obtain ⟨l, k', hk, hn, hp⟩ := hr.simple h
  obtain ⟨v, l', e, F, B, hF, hB, hF1, hB1, hnet, hw⟩ := hp.edges h hn
  injection e with e1 e2
  subst e1 e2
  -- the path of the tree
  have htree : ∀ e ∈ consec (dij.path t), OnTree s dij t e.1 e.2 := by
    refine h.tree_induction (P := fun t => ∀ e ∈ consec (dij.path t), OnTree s dij t e.1 e.2) ?_ ?_ t ht
    · rw [h.pathSource]; simp
    · intro u v huv _ _ ih e he
      obtain ⟨m, hm⟩ := h.path_last huv.parentKey
      rw [huv.path, hm, List.append_assoc, List.singleton_append, consec_append, List.mem_append, ← hm] at he
      rcases he with he | he
      · have := ih e he
        exact ⟨this.1, huv.mem_path_iff.2 (.inl this.2)⟩
      · simp at he
        subst he
        exact ⟨huv, h.mem_path_self huv.key⟩
  have hTn := consec_nodup (h.path_nodup ht)
  obtain ⟨m, hm⟩ := h.path_last ht
  have hpath : ∃ m', dij.path t = s :: m' := by
    refine h.tree_induction (P := fun t => ∃ m', dij.path t = s :: m') ⟨[], h.pathSource⟩ ?_ t ht
    rintro u v huv _ _ ⟨m', hm'⟩
    exact ⟨m' ++ [v], by rw [huv.path, hm']; rfl⟩
  obtain ⟨m', hm'⟩ := hpath
  have hTnet : ∀ x, net (consec (dij.path t)) x = ind s x - ind t x := by
    intro x
    rw [hm']
    refine net_consec s m' t x ?_
    rw [← hm', hm]; simp
  have hTw : edgesWeight G (consec (dij.path t)) = dij.dist t := by
    refine h.tree_induction (P := fun t => edgesWeight G (consec (dij.path t)) = dij.dist t) ?_ ?_ t ht
    · rw [h.pathSource, h.distSource]; rfl
    · intro u v huv _ hd ih
      obtain ⟨m, hm⟩ := h.path_last huv.parentKey
      rw [huv.path, hm, List.append_assoc, List.singleton_append, consec_append, edgesWeight_append, ← hm, ih, hd]
      simp [edgesWeight]
  have hBT : ∀ e ∈ B, e ∈ consec (dij.path t) := by
    intro e he
    obtain ⟨h1, h2⟩ := (hB1 e he).1
    obtain ⟨q, hq⟩ := (h.prefix_of_mem ht e.2 h2).2
    obtain ⟨n, hn⟩ := h.path_last h1.parentKey
    rw [← hq, h1.path, hn]
    have : n ++ [e.1] ++ [e.2] ++ q = n ++ e.1 :: e.2 :: q := by simp
    rw [this, mem_consec_iff_split]
    exact ⟨n, q, rfl⟩
  -- the edges of the pair
  let E := (consec (dij.path t)).filter (fun e => decide (e ∉ B)) ++ F
  have hE : E.Nodup := by
    rw [List.nodup_append]
    refine ⟨hTn.filter _, hF, ?_⟩
    rintro a ha b hb rfl
    exact (hF1 a hb).2.2.1 (htree a (List.mem_filter.1 ha).1)
  have hEnet : ∀ x, net E x = 2 * (ind s x - ind t x) := by
    intro x
    rw [net_append]
    have h1 := sum_filter_not hTn hB hBT (fun e => ind e.1 x - ind e.2 x)
    have h2 := hTnet x
    have h3 := hnet x
    rw [net] at h2
    rw [net, h1, h2]
    rw [net, net] at h3
    rw [net]
    linarith
  have hEw : edgesWeight G E = 2 * dij.dist t + k' := by
    rw [edgesWeight_append]
    have h1 := sum_filter_not hTn hB hBT (fun e => G.weight e.1 e.2)
    simp only [edgesWeight] at h1 hTw hw ⊢
    linarith
  have hEG : ∀ e ∈ E, e.2 ∈ G.succ e.1 := by
    intro e he
    rcases List.mem_append.1 he with he | he
    · exact ((htree e (List.mem_filter.1 he).1).1.edge h).1
    · exact (hF1 e he).2.1
  obtain ⟨p, E1, hp1, hp2, hp3, hp4, hE1, hE1s, hE1net, hw1⟩ := peel (G := G) hE (by omega) hEnet
  obtain ⟨q, E2, hq1, hq2, hq3, hq4, hE2, hE2s, -, hw2⟩ := peel (G := G) hE1 (by omega) hE1net
  refine ⟨walkWeight G.weight p + walkWeight G.weight q, ?_, p, q, ⟨hp2, hp3, fun e he => hEG e (hp4 e he)⟩,
    ⟨hq2, hq3, fun e he => hEG e (hE1s e (hq4 e he)).1⟩, hp1, hq1, ?_, rfl⟩
  · have h2 : 0 ≤ edgesWeight G E2 := edge_nonneg_sum hg fun e he => hEG e (hE1s e (hE2s e he).1).1
    simp only [edgesWeight] at hw1 hw2 hEw h2
    simp only [walkWeight]
    linarith
  · rw [List.nodup_append]
    refine ⟨consec_nodup hp1, consec_nodup hq1, ?_⟩
    rintro a ha b hb rfl
    exact (hE1s a (hq4 a hb)).2 ha

end Pctsp
