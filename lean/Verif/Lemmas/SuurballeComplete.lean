import Verif.Lemmas.SuurballeExtract

/-!
# When the algorithm misses nothing

If no edge outside the tree can lower a tentative distance any more, the tentative distance of every vertex is at most the cost of every
augmenting walk.
-/

set_option linter.unusedSectionVars false

namespace Pctsp

variable {V : Type} [LinearOrder V] {G : DiGraph V} {s : V} {dij : DijkstraOut V} {T : STree V}

/-- A vertex with a label on the tree path between the ends of an edge outside the tree does not lower the distance of the head any more. -/
def Settled (G : DiGraph V) (s : V) (dij : DijkstraOut V) (st : SState V) : Prop :=
  ∀ u ∈ dij.distKeys, ∀ w ∈ G.succ u, ¬ IsChild s dij u w → ∀ v, st.labeled v = true → Sep s dij v u w → st.tent w ≤ st.tent v + adjCost G dij u w

theorem sep_refl_left (h : IsDijkstra G s dij) {v t : V} (hv : v ∈ dij.distKeys) : Sep s dij v v t :=
  ⟨.inl (h.mem_path_self hv), fun _ hy hc => hy.not_mem h hc.1⟩

theorem Sep.symm {v a b : V} (hs : Sep s dij v a b) : Sep s dij v b a := ⟨hs.1.symm, fun y hy hc => hs.2 y hy hc.symm⟩

/-- A vertex between `a` and `t` that is not between `b` and `t` is between `a` and `b`. -/
theorem Sep.other (h : IsDijkstra G s dij) {v a b t : V} (hb : b ∈ dij.distKeys) (hs : Sep s dij v a t) (hn : ¬ Sep s dij v b t) :
    Sep s dij v a b := by
  by_cases hc : ∃ c, IsChild s dij v c ∧ c ∈ dij.path b ∧ c ∈ dij.path t
  · obtain ⟨c, h1, h2, h3⟩ := hc
    refine ⟨.inr (h.path_trans hb (h1.parent_mem h) h2), ?_⟩
    rintro d hd ⟨h4, h5⟩
    have := hd.eq_of_mem h h1 hb h5 h2
    subst this
    exact hs.2 d hd ⟨h4, h3⟩
  · have h1 : ¬ (v ∈ dij.path b ∨ v ∈ dij.path t) := fun h1 => hn ⟨h1, fun c h2 h3 => hc ⟨c, h2, h3⟩⟩
    rw [not_or] at h1
    refine ⟨.inl (hs.1.resolve_right h1.2), ?_⟩
    rintro d hd ⟨_, h5⟩
    exact h1.1 (h.path_trans hb (hd.parent_mem h) h5)

theorem Settled.reach (h : IsDijkstra G s dij) {st : SState V} (hst : Settled G s dij st) (hlab : ∀ x ∈ dij.distKeys, st.tent x < maxsize → st.labeled x = true)
    (hsrc : st.tent s = 0) {t x : V} {k : Int} (ht : t ∈ dij.distKeys) (hr : RR G s dij t x k) (hk : k < maxsize) :
    ∃ v, st.labeled v = true ∧ Sep s dij v x t ∧ st.tent v ≤ k := by
  induction hr with
  | start h0 => exact ⟨s, hlab s h.source (by rw [hsrc]; simp [maxsize]), sep_refl_left h h.source, by omega⟩
  | @step a b k c k' h1 h2 h3 ih =>
    have hc := h2.nonneg h
    obtain ⟨v, hv, hs, hvk⟩ := ih (by omega)
    cases h2 with
    | fwd ha hb hn =>
      have hbk := (h.relaxed a ha b hb).1
      by_cases hch : IsChild s dij a b
      · have hbt : b ∉ dij.path t := fun hm => hn ⟨hch, hm⟩
        refine ⟨v, hv, ⟨?_, ?_⟩, by omega⟩
        · exact hs.1.imp (fun h4 => hch.mem_path_iff.2 (.inl h4)) id
        · rintro y hy ⟨h4, h5⟩
          rcases hch.mem_path_iff.1 h4 with h4 | h4
          · exact hs.2 y hy ⟨h4, h5⟩
          · subst h4; exact hbt h5
      · by_cases hsb : Sep s dij v b t
        · exact ⟨v, hv, hsb, by omega⟩
        · have h4 := hst a ha b hb hch v hv (hs.other h hbk hsb)
          exact ⟨b, hlab b hbk (by omega), sep_refl_left h hbk, by omega⟩
    | bwd ho =>
      refine ⟨v, hv, ⟨.inr ?_, ?_⟩, by omega⟩
      · exact hs.1.elim (fun h4 => h.path_trans ht h4 ho.2) id
      · rintro y hy ⟨h4, h5⟩
        exact hs.2 y hy ⟨ho.1.mem_path_iff.2 (.inl h4), h5⟩

/-- The tentative distance is at most the cost of every augmenting walk. -/
theorem Settled.le (h : IsDijkstra G s dij) {st : SState V} (hst : Settled G s dij st) (hlab : ∀ x ∈ dij.distKeys, st.tent x < maxsize → st.labeled x = true)
    (hsrc : st.tent s = 0) {t : V} {k : Int} (ht : t ∈ dij.distKeys) (hr : RR G s dij t t k) (hk : k < maxsize) : st.tent t ≤ k := by
  obtain ⟨v, _, hs, hvk⟩ := hst.reach h hlab hsrc ht hr hk
  have hvt : v ∈ dij.path t := hs.1.elim id id
  by_cases e : v = t
  · subst e; exact hvk
  · obtain ⟨y, h1, h2⟩ := h.exists_child ht hvt e
    exact absurd ⟨h2, h2⟩ (hs.2 y h1)

/-! ## From a pair of paths to an augmenting walk -/

theorem walk_keys (h : IsDijkstra G s dij) : ∀ (l : List V) (a : V), a ∈ dij.distKeys → DWalk G (a :: l) → ∀ x ∈ a :: l, x ∈ dij.distKeys := by
  intro l
  induction l with
  | nil => intro a ha _ x hx; rw [List.mem_singleton] at hx; subst hx; exact ha
  | cons b l ih =>
    intro a ha hw x hx
    rcases List.mem_cons.1 hx with rfl | hx
    · exact ha
    · refine ih b (h.relaxed a ha b (hw (a, b) (by simp))).1 (fun e he => hw e ?_) x hx
      rw [consec_cons_cons]; exact List.mem_cons_of_mem _ he

/-- The total transformed cost. -/
def adjSum (G : DiGraph V) (dij : DijkstraOut V) (E : List (V × V)) : Int := (E.map fun e => adjCost G dij e.1 e.2).sum

theorem adjSum_append (E F : List (V × V)) : adjSum G dij (E ++ F) = adjSum G dij E + adjSum G dij F := by simp [adjSum]

theorem adjSum_consec (l : List V) (a t : V) (ht : (a :: l).getLast? = some t) :
    adjSum G dij (consec (a :: l)) = walkWeight G.weight (a :: l) + dij.dist a - dij.dist t := by
  induction l generalizing a with
  | nil => simp at ht; subst ht; simp [adjSum, walkWeight]
  | cons b l ih =>
    have := ih b (by simpa using ht)
    simp only [adjSum, walkWeight, consec_cons_cons, List.map_cons, List.sum_cons, adjCost, adjustEdgeCost] at this ⊢
    omega

theorem adjSum_nonneg (h : IsDijkstra G s dij) {E : List (V × V)} (hE : ∀ e ∈ E, e.1 ∈ dij.distKeys ∧ e.2 ∈ G.succ e.1) : 0 ≤ adjSum G dij E := by
  induction E with
  | nil => simp [adjSum]
  | cons e E ih =>
    have h1 := ih fun d hd => hE d (List.mem_cons_of_mem _ hd)
    have h2 := adjCost_nonneg h (hE e List.mem_cons_self).1 (hE e List.mem_cons_self).2
    simp only [adjSum, List.map_cons, List.sum_cons] at h1 ⊢
    omega

/-- A walk along edges of `F` and edges of `B` backwards is an augmenting walk. -/
theorem rr_of_walk {t : V} {F B : List (V × V)}
    (hF : ∀ e ∈ F, e.1 ∈ dij.distKeys ∧ e.2 ∈ G.succ e.1 ∧ ¬ OnTree s dij t e.1 e.2) (hB : ∀ e ∈ B, OnTree s dij t e.1 e.2) :
    ∀ (l : List V) (a z : V) (k : Int), (a :: l).getLast? = some z → (∀ e ∈ consec (a :: l), e ∈ F ∨ (e.2, e.1) ∈ B) → RR G s dij t a k →
      RR G s dij t z (k + adjSum G dij ((consec (a :: l)).filter fun e => decide (e ∈ F))) := by
  intro l
  induction l with
  | nil =>
    intro a z k hz _ hr
    simp at hz; subst hz
    simpa [adjSum] using hr
  | cons b l ih =>
    intro a z k hz he hr
    have hab := he (a, b) (by simp)
    have hrest := fun e he' => he e (by rw [consec_cons_cons]; exact List.mem_cons_of_mem _ he')
    have hz' : (b :: l).getLast? = some z := by simpa using hz
    rw [consec_cons_cons]
    by_cases hm : (a, b) ∈ F
    · obtain ⟨h1, h2, h3⟩ := hF _ hm
      have := ih b z (k + adjCost G dij a b) hz' hrest (.step hr (.fwd h1 h2 h3) le_rfl)
      refine this.mono ?_
      rw [List.filter_cons_of_pos (by simpa using hm)]
      simp only [adjSum, List.map_cons, List.sum_cons]
      omega
    · have h1 := hB _ (hab.resolve_left hm)
      have := ih b z k hz' hrest (.step hr (.bwd h1) (by omega))
      rwa [List.filter_cons_of_neg (by simpa using hm)]

theorem head_eq {α : Type} {l : List α} {a : α} (hh : l.head? = some a) : ∃ m, l = a :: m := by
  cases l with
  | nil => simp at hh
  | cons b m => simp at hh; subst hh; exact ⟨m, rfl⟩

/-- The edges of the path of the tree. -/
theorem treePath_edges (h : IsDijkstra G s dij) {t : V} (ht : t ∈ dij.distKeys) {e : V × V} : e ∈ consec (dij.path t) ↔ OnTree s dij t e.1 e.2 := by
  constructor
  · intro he
    revert e
    refine h.tree_induction (P := fun t => ∀ {e : V × V}, e ∈ consec (dij.path t) → OnTree s dij t e.1 e.2) ?_ ?_ t ht
    · rw [h.pathSource]; simp
    · intro u v huv _ _ ih e he
      obtain ⟨m, hm⟩ := h.path_last huv.parentKey
      rw [huv.path, hm, List.append_assoc, List.singleton_append, consec_append, List.mem_append, ← hm] at he
      rcases he with he | he
      · have := ih he
        exact ⟨this.1, huv.mem_path_iff.2 (.inl this.2)⟩
      · simp at he
        subst he
        exact ⟨huv, h.mem_path_self huv.key⟩
  · rintro ⟨h1, h2⟩
    obtain ⟨q, hq⟩ := (h.prefix_of_mem ht e.2 h2).2
    obtain ⟨n, hn⟩ := h.path_last h1.parentKey
    rw [← hq, h1.path, hn]
    have : n ++ [e.1] ++ [e.2] ++ q = n ++ e.1 :: e.2 :: q := by simp
    rw [this, mem_consec_iff_split]
    exact ⟨n, q, rfl⟩

theorem treePath_cons (h : IsDijkstra G s dij) {t : V} (ht : t ∈ dij.distKeys) : ∃ m, dij.path t = s :: m := by
  refine h.tree_induction (P := fun t => ∃ m', dij.path t = s :: m') ⟨[], h.pathSource⟩ ?_ t ht
  rintro u v huv _ _ ⟨m', hm'⟩
  exact ⟨m' ++ [v], by rw [huv.path, hm']; rfl⟩

theorem treePath_getLast (h : IsDijkstra G s dij) {t : V} (ht : t ∈ dij.distKeys) : (dij.path t).getLast? = some t := by
  obtain ⟨m, hm⟩ := h.path_last ht
  rw [hm]; simp

theorem net_filter_sub {E P : List (V × V)} (hE : E.Nodup) (hP : P.Nodup) (x : V) :
    net (E.filter fun e => decide (e ∉ P)) x - net (P.filter fun e => decide (e ∉ E)) x = net E x - net P x := by
  have h1 := filter_split_sum E (fun e => decide (e ∈ P)) (fun e => ind e.1 x - ind e.2 x)
  have h2 := filter_split_sum P (fun e => decide (e ∈ E)) (fun e => ind e.1 x - ind e.2 x)
  have hp : (E.filter fun e => decide (e ∈ P)).Perm (P.filter fun e => decide (e ∈ E)) := by
    rw [List.perm_ext_iff_of_nodup (hE.filter _) (hP.filter _)]
    intro e
    simp only [List.mem_filter, decide_eq_true_eq]
    exact ⟨fun h => h.symm, fun h => h.symm⟩
  have h3 := (hp.map fun e => ind e.1 x - ind e.2 x).sum_eq
  simp only [net, decide_not]
  omega

theorem net_swap (B : List (V × V)) (x : V) : net (B.map Prod.swap) x = - net B x := by
  induction B with
  | nil => simp [net]
  | cons e B ih =>
    simp only [net, List.map_cons, List.sum_cons, Prod.fst_swap, Prod.snd_swap] at ih ⊢
    rw [ih]; omega

/-- Two edge-disjoint paths give an augmenting walk. -/
theorem EdgeDisjointPair.rr (h : IsDijkstra G s dij) {t : V} {c : Int} (hp : EdgeDisjointPair G s t c) :
    RR G s dij t t (c - 2 * dij.dist t) := by
  obtain ⟨p, q, hp, hq, _, _, hn, hc⟩ := hp
  obtain ⟨p', rfl⟩ := head_eq hp.head
  obtain ⟨q', rfl⟩ := head_eq hq.head
  have hpk := walk_keys h p' s h.source hp.walk
  have hqk := walk_keys h q' s h.source hq.walk
  have ht : t ∈ dij.distKeys := hpk t (List.mem_of_getLast? hp.last)
  obtain ⟨m, hm⟩ := treePath_cons h ht
  have hml := treePath_getLast h ht
  obtain ⟨E, hEe⟩ : ∃ E, E = consec (s :: p') ++ consec (s :: q') := ⟨_, rfl⟩
  rw [← hEe] at hn
  have hPn : (consec (dij.path t)).Nodup := consec_nodup (h.path_nodup ht)
  have hEG : ∀ e ∈ E, e.1 ∈ dij.distKeys ∧ e.2 ∈ G.succ e.1 := by
    intro e he
    rw [hEe] at he
    rcases List.mem_append.1 he with he | he
    · exact ⟨hpk _ (mem_of_mem_consec he).1, hp.walk e he⟩
    · exact ⟨hqk _ (mem_of_mem_consec he).1, hq.walk e he⟩
  obtain ⟨F, hFe⟩ : ∃ F, F = E.filter fun e => decide (e ∉ consec (dij.path t)) := ⟨_, rfl⟩
  obtain ⟨B, hBe⟩ : ∃ B, B = (consec (dij.path t)).filter fun e => decide (e ∉ E) := ⟨_, rfl⟩
  have hF : ∀ e ∈ F, e.1 ∈ dij.distKeys ∧ e.2 ∈ G.succ e.1 ∧ ¬ OnTree s dij t e.1 e.2 := by
    intro e he
    rw [hFe, List.mem_filter, decide_eq_true_eq] at he
    exact ⟨(hEG e he.1).1, (hEG e he.1).2, fun ho => he.2 ((treePath_edges h ht).2 ho)⟩
  have hB : ∀ e ∈ B, OnTree s dij t e.1 e.2 := by
    intro e he
    rw [hBe, List.mem_filter] at he
    exact (treePath_edges h ht).1 he.1
  have hnet : ∀ v, net (F ++ B.map Prod.swap) v = 1 * (ind s v - ind t v) := by
    intro v
    rw [net_append, net_swap, hFe, hBe]
    have h1 := net_filter_sub hn hPn v
    have h2 : net E v = 2 * (ind s v - ind t v) := by
      rw [hEe, net_append, net_consec s p' t v hp.last, net_consec s q' t v hq.last]; omega
    have h3 : net (consec (dij.path t)) v = ind s v - ind t v := by
      rw [hm]; exact net_consec s m t v (by rw [← hm]; exact hml)
    omega
  obtain ⟨l, hln, hll, hlR⟩ := simple_of_reach (exists_path (by omega) hnet)
  have h1 := rr_of_walk (k := 0) hF hB l s t hll (fun e he => by
    have := hlR e he
    rcases List.mem_append.1 this with h2 | h2
    · exact .inl h2
    · right
      obtain ⟨d, hd, hde⟩ := List.mem_map.1 h2
      have : d = (e.2, e.1) := by rw [← Prod.swap_swap d, hde]; rfl
      rwa [← this]) (.start le_rfl)
  refine h1.mono ?_
  -- the cost
  have hsub : ((consec (s :: l)).filter fun e => decide (e ∈ F)).Subperm E := by
    refine List.subperm_of_subset ((consec_nodup hln).filter _) ?_
    intro e he
    rw [List.mem_filter, decide_eq_true_eq, hFe, List.mem_filter] at he
    exact he.2.1
  obtain ⟨L, hL1, hL2⟩ := hsub
  obtain ⟨R, hR⟩ := hL2.exists_perm_append
  have hR := hR.trans (hL1.append_right R)
  have h2 : adjSum G dij E = adjSum G dij ((consec (s :: l)).filter fun e => decide (e ∈ F)) + adjSum G dij R := by
    have := (hR.map fun e => adjCost G dij e.1 e.2).sum_eq
    rw [← adjSum_append]; exact this
  have h3 : 0 ≤ adjSum G dij R := adjSum_nonneg h fun e he => hEG e (hR.mem_iff.2 (List.mem_append_right _ he))
  have h4 : adjSum G dij E = c - 2 * dij.dist t := by
    rw [hEe, adjSum_append, adjSum_consec _ _ _ hp.last, adjSum_consec _ _ _ hq.last, h.distSource, ← hc]
    omega
  omega

end Pctsp
