import Verif.Lemmas.SuurballeScan

/-!
# The algorithm is exact on graphs with split vertices
-/

set_option linter.unusedSectionVars false

namespace Pctsp

variable {V : Type} [LinearOrder V] {G : DiGraph V} {s : V} {dij : DijkstraOut V} {T : STree V}

/-! ## What the moves of one turn do -/

/-- No tentative distance of a vertex with a label changes. -/
theorem Run.same (hg : G.WF) (h : IsDijkstra G s dij) (hT : TreeOK G s dij T) {v : V} {st st' : SState V} {ord : List V} (hb : Basic G s dij st)
    (hd : DInv G s dij ord st) (hv : v ∈ ord) (hmax : ∀ a ∈ ord, st.tent a ≤ st.tent v) (hm : Run s dij T v st st') :
    ∀ a ∈ ord, st'.tent a = st.tent a := by
  induction hm with
  | refl => exact fun _ _ => rfl
  | @tail st1 st2 h1 h2 ih =>
    obtain ⟨hd1, hm1⟩ := Run.dinv hg h hT hb hd hv hmax h1
    have hb1 := Run.basic hg hT hb h1
    cases h2 with
    | @proc _ e he hs hv1 hp =>
      have hp := process_spec hg hT hb1 he hp
      obtain ⟨h6, h7, h8⟩ := hb1.edge _ e he
      have hcost : 0 ≤ T.cost e.1 e.2 := by rw [hT.cost]; exact adjCost_nonneg h h6 h7
      intro a ha
      rw [← ih a ha]
      rcases hp.upd with ⟨hlt, ht, _⟩ | ⟨_, ht, _⟩
      · rw [ht, setAt_other]
        rintro rfl
        have := hm1 _ ha
        omega
      · rw [ht]
    | links _ _ => exact ih

/-- An edge that is removed has the vertex between its ends, and does not lower the distance of its head any more. -/
theorem Run.gone (hg : G.WF) (h : IsDijkstra G s dij) (hT : TreeOK G s dij T) {v : V} {st st' : SState V} {ord : List V} (hb : Basic G s dij st)
    (hd : DInv G s dij ord st) (hv : v ∈ ord) (hmax : ∀ a ∈ ord, st.tent a ≤ st.tent v) (hm : Run s dij T v st st') :
    ∀ e ∈ st.inc e.1, e ∉ st'.inc e.1 → Sep s dij v e.1 e.2 ∧ st'.tent e.2 ≤ st.tent v + adjCost G dij e.1 e.2 := by
  induction hm with
  | refl => exact fun e he hn => absurd he hn
  | @tail st1 st2 h1 h2 ih =>
    have hb1 := Run.basic hg hT hb h1
    have hs2 := Run.shrinks hg hT hb1 (.single h2)
    intro e he hn
    by_cases hn1 : e ∈ st1.inc e.1
    · cases h2 with
      | @proc _ d hd' hs hv1 hp =>
        have hp := process_spec hg hT hb1 hd' hp
        have hed : e = d := by
          by_contra hne
          refine hn ?_
          rw [hp.inc, List.mem_erase_of_ne hne]; exact hn1
        subst hed
        refine ⟨hs, ?_⟩
        rw [← Run.same hg h hT hb hd hv hmax h1 v hv, ← hT.cost]
        rcases hp.upd with ⟨hlt, ht, _⟩ | ⟨hle, ht, _⟩
        · rw [ht, setAt_same]
        · rw [ht]; exact hle
      | links _ _ => exact absurd hn1 hn
    · obtain ⟨h3, h4⟩ := ih e he hn1
      exact ⟨h3, (hs2.tent _).trans h4⟩

/-- A vertex keeps its cause and its predecessor, or gets the vertex of the turn as its cause. -/
theorem Run.cause (hg : G.WF) (hT : TreeOK G s dij T) {v : V} {st st' : SState V} (hb : Basic G s dij st) (hm : Run s dij T v st st') :
    ∀ x, (st'.cause x = st.cause x ∧ st'.pred x = st.pred x ∧ st'.tent x = st.tent x) ∨
      (st'.cause x = some v ∧ ∃ p, st'.pred x = some p ∧ (p, x) ∈ st.inc p ∧ Sep s dij v p x ∧ st'.tent x < st.tent x) := by
  induction hm with
  | refl => exact fun x => .inl ⟨rfl, rfl, rfl⟩
  | @tail st1 st2 h1 h2 ih =>
    have hb1 := Run.basic hg hT hb h1
    have hs1 := Run.shrinks hg hT hb h1
    cases h2 with
    | @proc _ e he hs hv1 hp =>
      have hp := process_spec hg hT hb1 he hp
      intro x
      rcases hp.upd with ⟨hlt, ht, hpr, hca, _⟩ | ⟨_, ht, hpr, hca, _⟩
      · by_cases ex : x = e.2
        · subst ex
          refine .inr ⟨by rw [hca, setAt_same], e.1, by rw [hpr, setAt_same], (hs1.inc _).subset he, hs, ?_⟩
          rw [ht, setAt_same]
          have := hs1.tent e.2
          omega
        · rw [ht, hpr, hca, setAt_other _ _ ex, setAt_other _ _ ex, setAt_other _ _ ex]
          exact ih x
      · rw [ht, hpr, hca]; exact ih x
    | links _ _ => exact ih

/-! ## The invariant -/

/-- An edge between reached vertices that is not in the tree. -/
def Outside (G : DiGraph V) (s : V) (dij : DijkstraOut V) (e : V × V) : Prop := e.1 ∈ dij.distKeys ∧ e.2 ∈ G.succ e.1 ∧ ¬ IsChild s dij e.1 e.2

structure XInv (G : DiGraph V) (s : V) (dij : DijkstraOut V) (T : STree V) (ord : List V) (st : SState V) : Prop where
  dinv : DInv G s dij ord st
  sorted : Sorted T st
  kids : ∀ a b, IsChild s dij a b → st.labeled a = false → st.labeled b = false → b ∈ st.children a
  mono : ord.Pairwise (fun a b => st.tent a ≤ st.tent b)
  gone : ∀ e, Outside G s dij e → e ∉ st.inc e.1 → ∃ v ∈ ord, Sep s dij v e.1 e.2
  removed : ∀ e, Outside G s dij e → e.2 ≠ s → (∃ v ∈ ord, Sep s dij v e.1 e.2) → e ∉ st.inc e.1 ∨ e.2 ∈ ord
  settled : ∀ e, Outside G s dij e → ∀ v ∈ ord, Sep s dij v e.1 e.2 → st.tent e.2 ≤ st.tent v + adjCost G dij e.1 e.2
  /-- the cause of a vertex is the first vertex with a label between the ends of the edge -/
  first : ∀ x, x ≠ s → st.tent x ≠ maxsize → ∃ q p l1 l2, st.cause x = some q ∧ st.pred x = some p ∧ Sep s dij q p x ∧ ord = l1 ++ q :: l2 ∧
    ∀ v ∈ l1, ¬ Sep s dij v p x

/-- A vertex with a label has no edge out of it outside the tree. -/
theorem split_not_labeled (h : IsDijkstra G s dij) (hsp : G.SplitLike s) {st : SState V} {ord : List V} (hd : DInv G s dij ord st) {e : V × V}
    (ho : Outside G s dij e) (h1 : e.1 ≠ s) (h2 : e.2 ≠ s) : st.tent e.1 = maxsize := by
  by_contra hfin
  obtain ⟨q, p, _, _, _, _, c5, c6, _⟩ := hd.cert e.1 h1 hfin
  obtain ⟨u, hu, hu1, _⟩ := h.exists_parent ho.1 h1
  rcases hsp e.1 e.2 ho.2.1 h1 h2 with h3 | h3
  · obtain ⟨u', hu', hu1', _⟩ := h.exists_parent (h.relaxed _ ho.1 _ ho.2.1).1 h2
    have := h3 u' hu1'
    subst this
    exact ho.2.2 hu'
  · have := h3 u p hu1 c5
    subst this
    exact c6 hu

/-- An edge with `v` between its ends is removed in the turn of `v`, if no vertex between its ends got its label before. -/
theorem turn_removes (h : IsDijkstra G s dij) {st st' : SState V} {v x z : V} (hx : x ∈ dij.distKeys)
    (hxz : v ∈ dij.path x) (hvx : v ≠ x) (hsep : Sep s dij v x z) (hvl : st.labeled v = false)
    (hkids : ∀ a b, IsChild s dij a b → st.labeled a = false → st.labeled b = false → b ∈ st.children a)
    (hno : ∀ a, st.labeled a = true → ¬ Sep s dij a x z)
    (hrem : ∀ w ∈ st.children v, st.labeled w = false → ∀ x ∈ dij.distKeys, Linked s dij st.children w x → ∀ e ∈ st'.inc x, w ∈ dij.path (otherEnd x e))
    (hz : z ∈ dij.distKeys) {e : V × V} (he : otherEnd x e = z) : e ∉ st'.inc x := by
  obtain ⟨y, hy, hyx⟩ := h.exists_child hx hxz hvx
  have hyz : y ∉ dij.path z := fun hm => hsep.2 y hy ⟨hyx, hm⟩
  have hsepb : ∀ a, y ∈ dij.path a → a ∈ dij.path x → Sep s dij a x z := by
    intro a h1 h2
    refine ⟨.inl h2, ?_⟩
    rintro c hc ⟨_, h4⟩
    have hcz := h.key_of_mem hz h4
    exact hyz (h.path_trans hz (h.path_trans hcz h1 (hc.parent_mem h)) h4)
  have hunl : ∀ a, y ∈ dij.path a → a ∈ dij.path x → st.labeled a = false := by
    intro a h1 h2
    cases hl : st.labeled a with
    | false => rfl
    | true => exact absurd (hsepb a h1 h2) (hno a hl)
  have hyl := hunl y (h.mem_path_self hy.key) hyx
  intro hm
  refine hyz (he ▸ hrem y (hkids v y hy hvl hyl) hyl x hx ⟨hyx, ?_⟩ e hm)
  intro a b hab h1 h2
  have hax := h.path_trans hx (hab.parent_mem h) h2
  exact hkids a b hab (hunl a h1 hax) (hunl b (hab.mem_path_iff.2 (.inl h1)) h2)

theorem Turn.xinv (hg : G.WF) (h : IsDijkstra G s dij) (hT : TreeOK G s dij T) (hsp : G.SplitLike s) {st st' : SState V} {ord : List V}
    (hi : LoopInv G s dij st) (hX : XInv G s dij T ord st) (ht : Turn s dij T st st') : ∃ ord', XInv G s dij T ord' st' := by
  have ht' := ht
  cases ht with
  | @stale x hx hn =>
    refine ⟨ord, ?_, hX.sorted, hX.kids, hX.mono, hX.gone, hX.removed, hX.settled, hX.first⟩
    have hd := hX.dinv
    refine ⟨hd.nodup, hd.lab, hd.nonneg, hd.src, hd.fin, fun y hy => hd.heapLow y (List.mem_of_mem_erase hy),
      fun a ha y hy => hd.low a ha y (List.mem_of_mem_erase hy), ?_, hd.cert⟩
    intro y hy hfin hyo
    rw [List.mem_erase_of_ne]
    · exact hd.queued y hy hfin hyo
    · intro hxy
      have hxy : x = (st.tent y, y) := hxy.symm
      subst hxy
      apply hn
      have := hi.bounded y
      have hfin : st.tent y ≠ maxsize := hfin
      refine ⟨?_, by simp only; omega⟩
      simp only
      cases hl : st.labeled y with
      | false => rfl
      | true => exact absurd ((hd.lab y).1 hl) hyo
  | @label _ x n hx h1 h2 hr hn hok =>
    obtain ⟨v, hve⟩ : ∃ v, v = x.2 := ⟨_, rfl⟩
    have hd := hX.dinv
    obtain ⟨hd0, hmax⟩ := hd.push hi hx h1 h2
    rw [← hve] at h1 h2 hr hok hd0 hmax
    have hvk : v ∈ dij.distKeys := by rw [hve]; exact hi.heapKey x (heapMin_mem hx).1
    let st0 : SState V := { st with heap := st.heap.erase x, labeled := setAt st.labeled v true }
    have hb0 : Basic G s dij st0 := ⟨hi.basic.ends, hi.basic.edge, hi.basic.nodup, hi.basic.childNodup, hi.basic.child, hi.basic.parent⟩
    have hvo : v ∈ ord ++ [v] := by simp
    have hd1 := (Run.dinv hg h hT hb0 hd0 hvo hmax hr).1
    have hsame : ∀ a ∈ ord ++ [v], st'.tent a = st.tent a := Run.same (st := st0) hg h hT hb0 hd0 hvo hmax hr
    have hgone := Run.gone hg h hT hb0 hd0 hvo hmax hr
    have hcause := Run.cause hg hT hb0 hr
    have hsh : Shrinks st0 st' := Run.shrinks hg hT hb0 hr
    have hvno : v ∉ ord := fun hm => by rw [(hd.lab v).2 hm] at h1; cases h1
    have hready : Ready G s dij v { st with heap := st.heap.erase x } :=
      ⟨⟨hi.basic.ends, hi.basic.edge, hi.basic.nodup, hi.basic.childNodup, hi.basic.child, hi.basic.parent⟩, hi.bounded, by
        show st.tent v ≠ maxsize
        omega⟩
    obtain ⟨hrc, hrem⟩ := labelVertex_removes hg h hT hn hvk hready hX.sorted hok
    have hlab' : ∀ a, st'.labeled a = setAt st.labeled v true a := fun a => by rw [hsh.labeled]
    -- an edge that still is in the lists, with `v` but no other vertex with a label between its ends
    have key : ∀ e, Outside G s dij e → e.2 ≠ s → Sep s dij v e.1 e.2 → v ≠ e.2 → (∀ a ∈ ord, ¬ Sep s dij a e.1 e.2) → e ∉ st'.inc e.1 := by
      intro e ho h2s hsep hv2 hno hm
      have hk2 := (h.relaxed _ ho.1 _ ho.2.1).1
      have hne : e.1 ≠ e.2 := fun h' => hg.noLoop e.1 (by have := ho.2.1; rwa [← h'] at this)
      have hinc0 : e ∈ st0.inc e.1 := (hsh.inc _).subset hm
      have hnol : ∀ a, st.labeled a = true → ¬ Sep s dij a e.1 e.2 := fun a ha => hno a ((hd.lab a).1 ha)
      have hb' := Run.basic hg hT hb0 hr
      by_cases hvw : v ∈ dij.path e.2
      · refine turn_removes (st := st) (st' := st') (e := e) (z := e.1) h hk2 hvw hv2 hsep.symm h1 hX.kids (fun a ha hs => hnol a ha hs.symm) hrem ho.1
          (otherEnd_right _ hne) (hb'.ends _ e hm).2.2
      · have hvu := hsep.1.resolve_right hvw
        have hv1 : v ≠ e.1 := by
          rintro rfl
          by_cases hs1 : e.1 = s
          · rw [hs1] at hvw; exact hvw (h.source_mem_path hk2)
          · have := split_not_labeled h hsp hd ho hs1 h2s
            omega
        exact turn_removes (st := st) (st' := st') (e := e) (z := e.2) h ho.1 hvu hv1 hsep h1 hX.kids hnol hrem hk2 (otherEnd_left _ rfl) hm
    refine ⟨ord ++ [v], hd1, Sorted.shrinks (st := st0) hX.sorted hsh, ?_, ?_, ?_, ?_, ?_, ?_⟩
    · intro a b hab ha hb
      rw [hlab'] at ha hb
      have hav : a ≠ v := by rintro rfl; rw [setAt_same] at ha; cases ha
      have hbv : b ≠ v := by rintro rfl; rw [setAt_same] at hb; cases hb
      rw [setAt_other _ _ hav] at ha
      rw [setAt_other _ _ hbv] at hb
      exact hrc a hav b (hX.kids a b hab ha hb) hbv
    · have h3 : (ord ++ [v]).Pairwise (fun a b => st.tent a ≤ st.tent b) := by
        rw [List.pairwise_append]
        refine ⟨hX.mono, by simp, ?_⟩
        intro a ha b hb
        rw [List.mem_singleton] at hb; subst hb
        exact hmax a (List.mem_append_left _ ha)
      refine h3.imp_of_mem ?_
      intro a b ha hb hab
      rw [hsame a ha, hsame b hb]; exact hab
    · intro e ho hn
      by_cases hm : e ∈ st.inc e.1
      · exact ⟨v, hvo, (hgone e hm hn).1⟩
      · obtain ⟨a, ha, hs⟩ := hX.gone e ho hm
        exact ⟨a, List.mem_append_left _ ha, hs⟩
    · rintro e ho h2s ⟨a, ha, hs⟩
      by_cases hex : ∃ a ∈ ord, Sep s dij a e.1 e.2
      · rcases hX.removed e ho h2s hex with h3 | h3
        · exact .inl fun hm => h3 ((hsh.inc _).subset hm)
        · exact .inr (List.mem_append_left _ h3)
      · by_cases hv2 : v = e.2
        · exact .inr (by rw [← hv2]; exact hvo)
        · have hav : a = v := by
            rcases List.mem_append.1 ha with ha | ha
            · exact absurd ⟨a, ha, hs⟩ hex
            · simpa using ha
          subst hav
          exact .inl (key e ho h2s hs hv2 fun b hb hsb => hex ⟨b, hb, hsb⟩)
    · intro e ho a ha hs
      rw [hsame a ha]
      have hc := adjCost_nonneg h ho.1 ho.2.1
      rcases List.mem_append.1 ha with hao | hav
      · exact (hsh.tent _).trans (hX.settled e ho a hao hs)
      · rw [List.mem_singleton] at hav
        subst hav
        by_cases h2s : e.2 = s
        · rw [h2s, hd1.src]
          have := hd.nonneg a
          rw [h2s] at hc
          omega
        by_cases h2o : e.2 ∈ ord ++ [a]
        · rw [hsame _ h2o]
          have := hmax _ h2o
          omega
        · by_cases hex : ∃ b ∈ ord, Sep s dij b e.1 e.2
          · obtain ⟨b, hb, hsb⟩ := hex
            have h3 := hX.settled e ho b hb hsb
            have h4 := hmax b (List.mem_append_left _ hb)
            have h5 : st'.tent e.2 ≤ st.tent e.2 := hsh.tent _
            omega
          · have hav2 : a ≠ e.2 := by rintro rfl; exact h2o ha
            have h3 := key e ho h2s hs hav2 fun b hb hsb => hex ⟨b, hb, hsb⟩
            by_cases hm : e ∈ st.inc e.1
            · exact (hgone e hm h3).2
            · exact absurd (hX.gone e ho hm) hex
    · intro y hy hfin
      rcases hcause y with ⟨c1, c2, c3⟩ | ⟨c1, p, c2, c3, c4, c5⟩
      · have hfin0 : st.tent y ≠ maxsize := fun e => hfin (c3.trans e)
        obtain ⟨q, p, l1, l2, f1, f2, f3, f4, f5⟩ := hX.first y hy hfin0
        exact ⟨q, p, l1, l2 ++ [v], by rw [c1]; exact f1, by rw [c2]; exact f2, f3, by rw [f4]; simp, f5⟩
      · refine ⟨v, p, ord, [], c1, c2, c4, rfl, ?_⟩
        intro a ha hs
        have hedge := hi.basic.edge p (p, y) c3
        have ho : Outside G s dij (p, y) := hedge
        rcases hX.removed (p, y) ho hy ⟨a, ha, hs⟩ with h3 | h3
        · exact h3 c3
        · have h4 := hsame y (List.mem_append_left _ h3)
          have h5 : st'.tent y < st.tent y := c5
          omega

theorem XInv.init (hg : G.WF) (h : IsDijkstra G s dij) (hT : TreeOK G s dij T) : XInv G s dij T [] (initState G dij T) := by
  have hf := initState_filled (T := T) hg h
  have hrest := hf.rest
  have e1 : (initState G dij T).children = T.succ := by have := congrArg SState.children hrest; exact this
  have e3 : (initState G dij T).tent = fun v => if v = s then 0 else maxsize := by
    have := congrArg SState.tent hrest; rw [← hT.source]; exact this
  refine ⟨DInv.init hg h hT, hf.sorted, ?_, by simp, ?_, by simp, by simp, ?_⟩
  · intro a b hab _ _
    rw [e1]; exact (hT.succ a b).2 hab
  · intro e ho hn
    exfalso
    apply hn
    rw [(hf.perm e.1).mem_iff, List.mem_filter, decide_eq_true_eq, mem_reachedEdges hg h]
    exact ⟨⟨ho.1, ho.2.1⟩, fun hm => ho.2.2 ((hT.succ _ _).1 hm), .inl rfl⟩
  · intro x hx hfin
    rw [e3] at hfin
    simp [hx] at hfin

theorem suurballe_xinv (hg : G.WF) (h : IsDijkstra G s dij) (hT : TreeOK G s dij T) (hsp : G.SplitLike s) {st : SState V}
    (hr : Relation.ReflTransGen (Turn s dij T) (initState G dij T) st) : ∃ ord, XInv G s dij T ord st := by
  induction hr with
  | refl => exact ⟨[], XInv.init hg h hT⟩
  | tail h1 h2 ih =>
    obtain ⟨ord, hX⟩ := ih
    exact h2.xinv hg h hT hsp (suurballe_certified hg h hT h1).1 hX

/-- The tentative distance is at most the transformed cost of every pair of edge-disjoint paths. -/
theorem suurballe_complete (hg : G.WF) (h : IsDijkstra G s dij) (hT : TreeOK G s dij T) (hsp : G.SplitLike s) {st : SState V}
    (hr : Relation.ReflTransGen (Turn s dij T) (initState G dij T) st) (hh : st.heap = []) {t : V} {c : Int} (ht : t ∈ dij.distKeys)
    (hp : EdgeDisjointPair G s t c) (hc : c - 2 * dij.dist t < maxsize) : st.tent t ≤ c - 2 * dij.dist t := by
  obtain ⟨ord, hX⟩ := suurballe_xinv hg h hT hsp hr
  have hd := hX.dinv
  refine Settled.le h (st := st) ?_ ?_ hd.src ht (hp.rr h) hc
  · intro u hu w hw hn v hv hs
    exact hX.settled (u, w) ⟨hu, hw, hn⟩ v ((hd.lab v).1 hv) hs
  · intro x hx hfin
    rw [hd.lab]
    by_contra hno
    have := hd.queued x hx (by omega) hno
    rw [hh] at this
    simp at this

end Pctsp
