import Verif.Lemmas.SuurballeInit

/-!
# The order of the labels, and the extraction of the two paths
-/

set_option linter.unusedSectionVars false

namespace Pctsp

variable {V : Type} [LinearOrder V] {G : DiGraph V} {s : V} {dij : DijkstraOut V} {T : STree V}

/-- `ord` is the list of the vertices in the order of their labels. -/
structure DInv (G : DiGraph V) (s : V) (dij : DijkstraOut V) (ord : List V) (st : SState V) : Prop where
  nodup : ord.Nodup
  lab : ∀ x, st.labeled x = true ↔ x ∈ ord
  nonneg : ∀ x, 0 ≤ st.tent x
  src : st.tent s = 0
  fin : ∀ x ∈ ord, st.tent x ≠ maxsize
  heapLow : ∀ y ∈ st.heap, st.tent y.2 ≤ y.1
  low : ∀ a ∈ ord, ∀ y ∈ st.heap, st.tent a ≤ y.1
  queued : ∀ x ∈ dij.distKeys, st.tent x ≠ maxsize → x ∉ ord → (st.tent x, x) ∈ st.heap
  cert : ∀ x, x ≠ s → st.tent x ≠ maxsize → ∃ q p, st.cause x = some q ∧ st.pred x = some p ∧ q ∈ ord ∧ p ∈ dij.distKeys ∧ x ∈ G.succ p ∧
    ¬ IsChild s dij p x ∧ st.tent x = st.tent q + adjCost G dij p x ∧ ∀ l1 l2, ord = l1 ++ x :: l2 → q ∈ l1

theorem Run.dinv (hg : G.WF) (h : IsDijkstra G s dij) (hT : TreeOK G s dij T) {v : V} {st st' : SState V} {ord : List V} (hb : Basic G s dij st)
    (hd : DInv G s dij ord st) (hv : v ∈ ord) (hmax : ∀ a ∈ ord, st.tent a ≤ st.tent v) (hm : Run s dij T v st st') :
    DInv G s dij ord st' ∧ ∀ a ∈ ord, st'.tent a ≤ st'.tent v := by
  induction hm with
  | refl => exact ⟨hd, hmax⟩
  | @tail st1 st2 h1 h2 ih =>
    obtain ⟨hd1, hm1⟩ := ih
    have hb1 := Run.basic hg hT hb h1
    cases h2 with
    | @proc _ e he hs hv1 hp =>
      have hp := process_spec hg hT hb1 he hp
      obtain ⟨h6, h7, h8⟩ := hb1.edge _ e he
      have hcost : 0 ≤ T.cost e.1 e.2 := by rw [hT.cost]; exact adjCost_nonneg h h6 h7
      rcases hp.upd with ⟨hlt, ht, hpr, hca, hhe⟩ | ⟨_, ht, hpr, hca, hhe⟩
      · have hno : e.2 ∉ ord := by
          intro hm
          have := hm1 e.2 hm
          omega
        have hsame : ∀ a ∈ ord, st2.tent a = st1.tent a := by
          intro a ha
          rw [ht, setAt_other]
          rintro rfl
          exact hno ha
        have hse : s ≠ e.2 := by
          rintro hse
          have h9 := hd1.src
          have := hd1.nonneg v
          rw [hse] at h9
          omega
        refine ⟨⟨hd1.nodup, ?_, ?_, ?_, ?_, ?_, ?_, ?_, ?_⟩, ?_⟩
        · intro x; rw [hp.labeled]; exact hd1.lab x
        · intro x
          rw [ht]
          by_cases ex : x = e.2
          · subst ex; rw [setAt_same]; have := hd1.nonneg v; omega
          · rw [setAt_other _ _ ex]; exact hd1.nonneg x
        · rw [ht, setAt_other _ _ hse]; exact hd1.src
        · intro x hx; rw [hsame x hx]; exact hd1.fin x hx
        · rw [hhe]
          intro y hy
          rw [ht]
          rcases List.mem_cons.1 hy with rfl | hy
          · rw [setAt_same]
          · have := hd1.heapLow y hy
            by_cases ex : y.2 = e.2
            · rw [ex, setAt_same]; rw [ex] at this; omega
            · rw [setAt_other _ _ ex]; exact this
        · rw [hhe]
          intro a ha y hy
          rw [hsame a ha]
          rcases List.mem_cons.1 hy with rfl | hy
          · have := hm1 a ha; simp only; omega
          · exact hd1.low a ha y hy
        · intro x hx hfin hxo
          rw [hhe, ht]
          rw [ht] at hfin
          by_cases ex : x = e.2
          · subst ex; rw [setAt_same]; exact List.mem_cons_self
          · rw [setAt_other _ _ ex] at hfin ⊢
            exact List.mem_cons_of_mem _ (hd1.queued x hx hfin hxo)
        · intro x hx hfin
          by_cases ex : x = e.2
          · subst ex
            refine ⟨v, e.1, by rw [hca, setAt_same], by rw [hpr, setAt_same], hv, h6, h7, h8, ?_, ?_⟩
            · rw [hsame v hv, ht, setAt_same, hT.cost]
            · intro l1 l2 e1
              exact absurd (e1 ▸ by simp) hno
          · rw [ht, setAt_other _ _ ex] at hfin
            obtain ⟨q, p, c1, c2, c3, c4, c5, c6, c7, c8⟩ := hd1.cert x hx hfin
            refine ⟨q, p, by rw [hca, setAt_other _ _ ex]; exact c1, by rw [hpr, setAt_other _ _ ex]; exact c2, c3, c4, c5, c6, ?_, c8⟩
            rw [hsame q c3, ht, setAt_other _ _ ex]; exact c7
        · intro a ha
          rw [hsame a ha, hsame v hv]
          exact hm1 a ha
      · refine ⟨⟨hd1.nodup, ?_, ?_, ?_, ?_, ?_, ?_, ?_, ?_⟩, ?_⟩
        · intro x; rw [hp.labeled]; exact hd1.lab x
        all_goals simp only [ht, hpr, hca, hhe]
        · exact hd1.nonneg
        · exact hd1.src
        · exact hd1.fin
        · exact hd1.heapLow
        · exact hd1.low
        · exact hd1.queued
        · exact hd1.cert
        · exact hm1
    | links _ _ => exact ⟨⟨hd1.nodup, hd1.lab, hd1.nonneg, hd1.src, hd1.fin, hd1.heapLow, hd1.low, hd1.queued, hd1.cert⟩, hm1⟩

/-- A vertex gets its label. -/
theorem DInv.push {st : SState V} {ord : List V} {x : Int × V} (hi : LoopInv G s dij st) (hd : DInv G s dij ord st) (hx : heapMin st.heap = some x)
    (h1 : st.labeled x.2 = false) (h2 : st.tent x.2 < maxsize) :
    DInv G s dij (ord ++ [x.2]) { st with heap := st.heap.erase x, labeled := setAt st.labeled x.2 true } ∧
      ∀ a ∈ ord ++ [x.2], st.tent a ≤ st.tent x.2 := by
  obtain ⟨hxm, hxl⟩ := heapMin_mem hx
  have hxk := hi.heapKey x hxm
  have hxo : x.2 ∉ ord := fun hm => by rw [(hd.lab _).2 hm] at h1; cases h1
  have hq := hd.queued x.2 hxk (by omega) hxo
  have hle := hxl _ hq
  have hlo := hd.heapLow x hxm
  have heq : st.tent x.2 = x.1 := by simp only at hle; omega
  refine ⟨?_, ?_⟩
  · refine ⟨?_, ?_, hd.nonneg, hd.src, ?_, fun y hy => hd.heapLow y (List.mem_of_mem_erase hy), ?_, ?_, ?_⟩
    · rw [List.nodup_append]
      refine ⟨hd.nodup, by simp, ?_⟩
      rintro a ha b hb rfl
      rw [List.mem_singleton] at hb
      subst hb
      exact hxo ha
    · intro y
      simp only [List.mem_append, List.mem_singleton, setAt]
      by_cases e : y = x.2
      · simp [e]
      · simp [e, hd.lab y]
    · intro a ha
      rcases List.mem_append.1 ha with ha | ha
      · exact hd.fin a ha
      · rw [List.mem_singleton] at ha
        subst ha
        simp only; omega
    · intro a ha y hy
      have hy := List.mem_of_mem_erase hy
      rcases List.mem_append.1 ha with ha | ha
      · exact hd.low a ha y hy
      · rw [List.mem_singleton] at ha
        subst ha
        simp only
        rw [heq]; exact hxl y hy
    · intro y hy hfin hyo
      simp only [List.mem_append, List.mem_singleton, not_or] at hyo
      simp only
      rw [List.mem_erase_of_ne]
      · exact hd.queued y hy hfin hyo.1
      · rintro rfl; exact hyo.2 rfl
    · intro y hy hfin
      obtain ⟨q, p, c1, c2, c3, c4, c5, c6, c7, c8⟩ := hd.cert y hy hfin
      refine ⟨q, p, c1, c2, List.mem_append_left _ c3, c4, c5, c6, c7, ?_⟩
      intro l1 l2 e
      rcases List.eq_nil_or_concat l2 with rfl | ⟨m, z, rfl⟩
      · have := List.append_inj' e rfl
        rw [← this.1]; exact c3
      · rw [show l1 ++ y :: (m.concat z) = (l1 ++ y :: m) ++ [z] by simp] at e
        have := List.append_inj' e rfl
        exact c8 l1 m this.1
  · intro a ha
    rcases List.mem_append.1 ha with ha | ha
    · rw [heq]; exact hd.low a ha x hxm
    · rw [List.mem_singleton] at ha
      subst ha; exact le_rfl

theorem Turn.dinv (hg : G.WF) (h : IsDijkstra G s dij) (hT : TreeOK G s dij T) {st st' : SState V} {ord : List V} (hi : LoopInv G s dij st)
    (hd : DInv G s dij ord st) (ht : Turn s dij T st st') : ∃ ord', DInv G s dij ord' st' := by
  cases ht with
  | @stale x hx hn =>
    refine ⟨ord, hd.nodup, hd.lab, hd.nonneg, hd.src, hd.fin, fun y hy => hd.heapLow y (List.mem_of_mem_erase hy),
      fun a ha y hy => hd.low a ha y (List.mem_of_mem_erase hy), ?_, hd.cert⟩
    intro y hy hfin hyo
    rw [List.mem_erase_of_ne]
    · exact hd.queued y hy hfin hyo
    · intro hxy
      have hxy : x = (st.tent y, y) := hxy.symm
      subst hxy
      apply hn
      have := hi.bounded y
      have hfin : st.tent y ≠ maxsize := hfin
      refine ⟨?_, by simp only; omega⟩
      simp only
      cases hl : st.labeled y with
      | false => rfl
      | true => exact absurd ((hd.lab y).1 hl) hyo
  | @label _ x _ hx h1 h2 hr _ _ =>
    obtain ⟨h3, h4⟩ := hd.push hi hx h1 h2
    exact ⟨ord ++ [x.2], (Run.dinv hg h hT (st := { st with heap := st.heap.erase x, labeled := setAt st.labeled x.2 true }) (v := x.2)
      ⟨hi.basic.ends, hi.basic.edge, hi.basic.nodup, hi.basic.childNodup, hi.basic.child, hi.basic.parent⟩ h3 (by simp) h4 hr).1⟩

theorem DInv.init (hg : G.WF) (h : IsDijkstra G s dij) (hT : TreeOK G s dij T) : DInv G s dij [] (initState G dij T) := by
  have hrest := (initState_filled (T := T) hg h).rest
  have e1 : (initState G dij T).labeled = fun _ => false := by have := congrArg SState.labeled hrest; exact this
  have e3 : (initState G dij T).tent = fun v => if v = s then 0 else maxsize := by
    have := congrArg SState.tent hrest; rw [← hT.source]; exact this
  have e4 : (initState G dij T).heap = dij.distKeys.map fun v => ((if v = s then 0 else maxsize : Int), v) := by
    have := congrArg SState.heap hrest; rw [← hT.source]; exact this
  refine ⟨by simp, by simp [e1], ?_, by simp [e3], by simp, ?_, by simp, ?_, ?_⟩
  · intro x; rw [e3]; simp only [maxsize]; split <;> omega
  · rw [e4, e3]
    intro y hy
    obtain ⟨v, _, rfl⟩ := List.mem_map.1 hy
    exact le_rfl
  · intro x hx _ _
    rw [e4, e3]
    exact List.mem_map.2 ⟨x, hx, rfl⟩
  · intro x hx hfin
    rw [e3] at hfin
    simp [hx] at hfin

theorem suurballe_dinv (hg : G.WF) (h : IsDijkstra G s dij) (hT : TreeOK G s dij T) {st : SState V}
    (hr : Relation.ReflTransGen (Turn s dij T) (initState G dij T) st) : ∃ ord, DInv G s dij ord st := by
  induction hr with
  | refl => exact ⟨[], DInv.init hg h hT⟩
  | tail h1 h2 ih =>
    obtain ⟨ord, hd⟩ := ih
    exact h2.dinv hg h hT (suurballe_certified hg h hT h1).1 hd

/-! ## Extraction -/

/-- The transformed cost of the tentative predecessor's edge. -/
def causeCost (G : DiGraph V) (dij : DijkstraOut V) (st : SState V) (y : V) : Int :=
  match st.pred y with
  | none => 0
  | some p => adjCost G dij p y

/-- What the extraction needs of a marked vertex. -/
def Markable (G : DiGraph V) (s : V) (dij : DijkstraOut V) (st : SState V) (y : V) : Prop :=
  y ≠ s ∧ ∃ p, st.pred y = some p ∧ p ∈ dij.distKeys ∧ y ∈ G.succ p ∧ ¬ IsChild s dij p y

theorem markCauses_ok {st : SState V} {ord : List V} (hd : DInv G s dij ord st) :
    ∀ (fuel : Nat) (l1 l2 : List V) (x : V) (mark : List V), ord = l1 ++ x :: l2 → x ≠ s → mark.Nodup → (∀ y ∈ mark, y ∉ l1 ++ [x]) →
      (∀ y ∈ mark, Markable G s dij st y) → l1.length + 2 ≤ fuel →
      ∃ M, markCauses s st fuel x mark = .ok M ∧ M.Nodup ∧ M.length ≤ mark.length + l1.length + 1 ∧ (∀ y ∈ M, Markable G s dij st y) ∧
        (M.map (causeCost G dij st)).sum = st.tent x + (mark.map (causeCost G dij st)).sum := by
  intro fuel
  induction fuel with
  | zero => intro l1 l2 x mark _ _ _ _ _ hf; omega
  | succ fuel ih =>
    intro l1 l2 x mark hord hx hn hdis hmk hf
    have hxo : x ∈ ord := by rw [hord]; simp
    obtain ⟨q, p, c1, c2, c3, c4, c5, c6, c7, c8⟩ := hd.cert x hx (hd.fin x hxo)
    have hq := c8 l1 l2 hord
    have hno := hd.nodup
    rw [hord, List.nodup_append] at hno
    have hxl : x ∉ l1 := fun hm => hno.2.2 x hm x List.mem_cons_self rfl
    have hxq : x ≠ q := by rintro rfl; exact hxl hq
    have hxm : x ∉ mark := fun hm => hdis x hm (by simp)
    have hcc : causeCost G dij st x = adjCost G dij p x := by simp [causeCost, c2]
    have hmk' : ∀ y ∈ x :: mark, Markable G s dij st y := by
      intro y hy
      rcases List.mem_cons.1 hy with rfl | hy
      · exact ⟨hx, p, c2, c4, c5, c6⟩
      · exact hmk y hy
    rw [markCauses, if_neg hx]
    simp only [if_neg hxm, c1, if_neg hxq]
    by_cases hqs : q = s
    · subst hqs
      obtain ⟨f, rfl⟩ : ∃ f, fuel = f + 1 := ⟨fuel - 1, by omega⟩
      refine ⟨x :: mark, by rw [markCauses, if_pos rfl], List.nodup_cons.2 ⟨hxm, hn⟩, by simp, hmk', ?_⟩
      rw [List.map_cons, List.sum_cons, hcc, c7, hd.src]; omega
    · obtain ⟨a, b, hab⟩ := List.append_of_mem hq
      have hord' : ord = a ++ q :: (b ++ x :: l2) := by rw [hord, hab]; simp
      obtain ⟨M, h1, h2, h3, h4, h5⟩ := ih a (b ++ x :: l2) q (x :: mark) hord' hqs (List.nodup_cons.2 ⟨hxm, hn⟩) (by
        intro y hy hym
        have hyl : y ∈ l1 := by
          rw [hab]
          rcases List.mem_append.1 hym with h | h
          · exact List.mem_append_left _ h
          · rw [List.mem_singleton] at h; subst h; simp
        rcases List.mem_cons.1 hy with rfl | hy
        · exact hxl hyl
        · exact hdis y hy (List.mem_append_left _ hyl)) hmk' (by
        have := congrArg List.length hab
        simp at this; omega)
      refine ⟨M, h1, h2, ?_, h4, ?_⟩
      · have := congrArg List.length hab
        simp at this h3; omega
      · rw [h5, List.map_cons, List.sum_cons, hcc, c7]; omega

theorem walkWeight_snoc (w : V → V → Int) (l : List V) (p x : V) : walkWeight w ((l ++ [p]) ++ [x]) = walkWeight w (l ++ [p]) + w p x := by
  simp only [walkWeight]
  rw [List.append_assoc, List.singleton_append, consec_append]
  simp

theorem DWalkFrom.snoc {l : List V} {p x : V} (h : DWalkFrom G s p (l ++ [p])) (hx : x ∈ G.succ p) : DWalkFrom G s x ((l ++ [p]) ++ [x]) := by
  refine ⟨?_, by simp, ?_⟩
  · have := h.head
    rw [List.head?_append, this]; rfl
  · intro e he
    rw [List.append_assoc, List.singleton_append, consec_append, List.mem_append] at he
    rcases he with he | he
    · exact h.walk e he
    · simp at he
      subst he
      exact hx

theorem sum_erase {l : List V} {x : V} (f : V → Int) (hx : x ∈ l) : (l.map f).sum = f x + ((l.erase x).map f).sum := by
  have := ((List.perm_cons_erase hx).map f).sum_eq
  simpa using this

theorem traversePath_ok (h : IsDijkstra G s dij) (hT : TreeOK G s dij T) {st : SState V} {D : Nat} (hD : ∀ x ∈ dij.distKeys, (dij.path x).length ≤ D) :
    ∀ (fuel : Nat) (x : V) (mark path : List V), x ∈ dij.distKeys → mark.Nodup → (∀ y ∈ mark, Markable G s dij st y) →
      mark.length * D + (dij.path x).length ≤ fuel →
      ∃ mark' w, traversePath T s st fuel x mark path = .ok (mark', w ++ path) ∧ mark'.Nodup ∧ (∀ y ∈ mark', y ∈ mark) ∧
        mark'.length ≤ mark.length ∧ DWalkFrom G s x (w ++ [x]) ∧
        walkWeight G.weight (w ++ [x]) = dij.dist x + (mark.map (causeCost G dij st)).sum - (mark'.map (causeCost G dij st)).sum ∧
        ∀ e : V × V, ¬ IsChild s dij e.1 e.2 → (consec (w ++ [x])).count e ≤ if e.2 ∈ mark ∧ e.2 ∉ mark' then 1 else 0 := by
  intro fuel
  induction fuel with
  | zero =>
    intro x mark path hx _ _ hf
    obtain ⟨l, hl⟩ := h.path_last hx
    rw [hl] at hf; simp at hf
  | succ fuel ih =>
    intro x mark path hx hn hmk hf
    rw [traversePath]
    by_cases hxs : x = s
    · subst hxs
      rw [if_pos rfl]
      refine ⟨mark, [], rfl, hn, fun y hy => hy, le_rfl, ⟨rfl, rfl, by simp [DWalk]⟩, ?_, by simp⟩
      rw [h.distSource]
      simp [walkWeight]
    · rw [if_neg hxs]
      by_cases hxm : x ∈ mark
      · rw [if_pos hxm]
        obtain ⟨_, p, hp1, hp2, hp3, hp4⟩ := hmk x hxm
        simp only [hp1]
        have hlen := List.length_erase_of_mem hxm
        have hpos := List.length_pos_of_mem hxm
        obtain ⟨mark', w, h1, h2, h3, h4, h5, h6, h7⟩ := ih p (mark.erase x) (p :: path) hp2 (hn.erase _)
          (fun y hy => hmk y (List.mem_of_mem_erase hy)) (by
            have h8 := hD p hp2
            have h9 : (dij.path x).length ≥ 1 := by
              obtain ⟨l, hl⟩ := h.path_last hx
              rw [hl]; simp
            obtain ⟨m, hm⟩ : ∃ m, mark.length = m + 1 := ⟨mark.length - 1, by omega⟩
            rw [hlen, hm, Nat.add_sub_cancel]
            rw [hm, Nat.succ_mul] at hf
            omega)
        refine ⟨mark', w ++ [p], ?_, h2, fun y hy => List.mem_of_mem_erase (h3 y hy), by omega, h5.snoc hp3, ?_, ?_⟩
        · rw [h1]; simp
        · rw [walkWeight_snoc, h6, sum_erase (causeCost G dij st) hxm]
          simp only [causeCost, hp1, adjCost, adjustEdgeCost]
          omega
        · intro e he
          have h8 := h7 e he
          rw [List.append_assoc, List.singleton_append, consec_append, List.count_append]
          have hxm' : x ∉ mark' := fun hm => (hn.mem_erase_iff.1 (h3 x hm)).1 rfl
          simp only [consec_cons_cons, consec_singleton]
          by_cases e1 : e = (p, x)
          · subst e1
            have h9 : x ∉ mark.erase x := fun hm => (hn.mem_erase_iff.1 hm).1 rfl
            simp only [h9, false_and, if_false] at h8
            simp only [hxm, hxm', not_false_eq_true, and_self, if_true]
            simp; omega
          · have h10 : List.count e [(p, x)] = 0 := by
              rw [List.count_eq_zero]; simpa using e1
            rw [h10, Nat.add_zero]
            refine h8.trans ?_
            by_cases h11 : e.2 ∈ mark.erase x ∧ e.2 ∉ mark'
            · rw [if_pos h11, if_pos ⟨List.mem_of_mem_erase h11.1, h11.2⟩]
            · rw [if_neg h11]; omega
      · rw [if_neg hxm]
        obtain ⟨u, hu, hu1, hu2⟩ := h.exists_parent hx hxs
        rw [hT.predsSome u x hu]
        simp only
        obtain ⟨mark', w, h1, h2, h3, h4, h5, h6, h7⟩ := ih u mark (u :: path) hu.parentKey hn hmk (by
          have := congrArg List.length hu.path
          simp at this; omega)
        refine ⟨mark', w ++ [u], ?_, h2, h3, h4, h5.snoc hu1, ?_, ?_⟩
        · rw [h1]; simp
        · rw [walkWeight_snoc, h6, hu2]; omega
        · intro e he
          have h8 := h7 e he
          rw [List.append_assoc, List.singleton_append, consec_append, List.count_append]
          simp only [consec_cons_cons, consec_singleton]
          have h10 : List.count e [(u, x)] = 0 := by
            rw [List.count_eq_zero]
            intro hm
            rw [List.mem_singleton] at hm
            subst hm
            exact he hu
          rw [h10, Nat.add_zero]; exact h8

/-- The extraction as a whole. -/
theorem extractPaths_ok (hg : G.WF) (h : IsDijkstra G s dij) (hT : TreeOK G s dij T) {st : SState V}
    (hr : Relation.ReflTransGen (Turn s dij T) (initState G dij T) st) (hh : st.heap = []) {t : V} (ht : t ∈ dij.distKeys) (hts : s ≠ t)
    (hfin : st.tent t ≠ maxsize) {fuel : Nat} (hf : (dij.distKeys.length + 1) * (dij.distKeys.length + 1) ≤ fuel) :
    ∃ p q, extractPaths T st fuel s t = .ok (p, q) ∧ DWalkFrom G s t p ∧ DWalkFrom G s t q ∧
      walkWeight G.weight p + walkWeight G.weight q ≤ 2 * dij.dist t + st.tent t ∧
      ∀ e, ¬ IsChild s dij e.1 e.2 → (consec p ++ consec q).count e ≤ 1 := by
  obtain ⟨ord, hd⟩ := suurballe_dinv hg h hT hr
  have hcert := (suurballe_certified hg h hT hr).2
  have hall : ∀ x, st.tent x ≠ maxsize → x ∈ ord := by
    intro x hx
    by_contra hno
    have := hd.queued x ((hcert x hx).key h) hx hno
    rw [hh] at this
    simp at this
  obtain ⟨l1, l2, hl⟩ := List.append_of_mem (hall t hfin)
  obtain ⟨D, hDe⟩ : ∃ D, D = dij.distKeys.length := ⟨_, rfl⟩
  have hD : ∀ x ∈ dij.distKeys, (dij.path x).length ≤ D := fun x hx => by
    rw [hDe]; exact (List.subperm_of_subset (h.path_nodup hx) fun y hy => h.key_of_mem hx hy).length_le
  have hl1 : l1.length + 1 ≤ D := by
    rw [hDe]
    have h1 := (List.subperm_of_subset hd.nodup fun y hy => (hcert y (hd.fin y hy)).key h).length_le
    rw [hl] at h1
    simp at h1; omega
  rw [← hDe] at hf
  have hf : D + 1 + D * D + D ≤ fuel := by
    have e : (D + 1) * (D + 1) = D + 1 + D * D + D := by ring
    omega
  obtain ⟨M, m1, m2, m3, m4, m5⟩ := markCauses_ok hd fuel l1 l2 t [] hl (Ne.symm hts) (by simp) (by simp) (by simp) (by omega)
  have hbound : ∀ m : List V, m.length ≤ l1.length + 1 → m.length * D + (dij.path t).length ≤ fuel := by
    intro m hm
    have h1 := hD t ht
    have h2 : m.length * D ≤ D * D := Nat.mul_le_mul_right D (by omega)
    omega
  have m3' : M.length ≤ l1.length + 1 := by simpa using m3
  obtain ⟨M1, w1, a1, a2, a3, a4, a5, a6, a7⟩ := traversePath_ok h hT hD fuel t M [t] ht m2 m4 (hbound M m3')
  obtain ⟨M2, w2, b1, b2, b3, b4, b5, b6, b7⟩ := traversePath_ok h hT hD fuel t M1 [t] ht a2 (fun y hy => m4 y (a3 y hy)) (hbound M1 (by omega))
  refine ⟨w1 ++ [t], w2 ++ [t], ?_, a5, b5, ?_, ?_⟩
  · unfold extractPaths
    rw [if_neg hts, if_neg hfin, m1, Res.ok_bind, a1, Res.ok_bind]
    simp only
    rw [b1, Res.ok_bind]
  · rw [a6, b6]
    have hnn : 0 ≤ (M2.map (causeCost G dij st)).sum := by
      have : ∀ l : List V, (∀ y ∈ l, Markable G s dij st y) → 0 ≤ (l.map (causeCost G dij st)).sum := by
        intro l
        induction l with
        | nil => intro _; simp
        | cons y l ih =>
          intro hl
          have h1 := ih fun z hz => hl z (List.mem_cons_of_mem _ hz)
          obtain ⟨_, p, p1, p2, p3, _⟩ := hl y List.mem_cons_self
          have h2 := adjCost_nonneg h p2 p3
          rw [List.map_cons, List.sum_cons]
          have h3 : causeCost G dij st y = adjCost G dij p y := by simp [causeCost, p1]
          omega
      exact this M2 fun y hy => m4 y (a3 y (b3 y hy))
    simp at m5
    omega
  · intro e he
    rw [List.count_append]
    have h1 := a7 e he
    have h2 := b7 e he
    by_cases h3 : e.2 ∈ M1
    · rw [if_neg (fun hc => hc.2 h3)] at h1
      have : (if e.2 ∈ M1 ∧ e.2 ∉ M2 then 1 else 0) ≤ 1 := by split <;> omega
      omega
    · rw [if_neg (fun hc => h3 hc.1)] at h2
      have : (if e.2 ∈ M ∧ e.2 ∉ M1 then 1 else 0) ≤ 1 := by split <;> omega
      omega

end Pctsp
