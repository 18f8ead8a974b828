import Verif.Lemmas.Machine

/-! Helper lemmas: the loops of the heuristics with machine numbers. -/

namespace Pctsp

variable {F : Type} {g : Graph} {cost prize : Nat → Int} {B : Int}

theorem IsTour.length_le (hg : g.WF) {r : Nat} {t : List Nat} (ht : IsTour g r t) : t.length ≤ g.n + 1 := by
  have h2 : 2 ≤ t.length := by
    obtain ⟨m, rfl⟩ := ht.shape
    simp
  have hsub : t.dropLast ⊆ List.range g.n := fun x hx => List.mem_range.2 (ht.walk.lt hg h2 x (List.dropLast_subset _ hx))
  have := (ht.nodup.subperm hsub).length_le
  simp only [List.length_dropLast, List.length_range] at this
  omega

theorem totalPrizeM_within (h : SmallValues g.n cost prize B) {l : List Nat} {k : Nat} (hl : l.length ≤ k) (hk : k ≤ 2 * (g.n + 3)) :
    totalPrizeM prize l = .ok (totalPrize prize l) ∧ WithinB B k (totalPrize prize l) := by
  obtain ⟨h1, h2⟩ := sumM_ok (m := 2 * (g.n + 3)) h.prize (fun k x hx hk => h.int32 hx hk) l 0 0 (withinB_zero B) (by omega)
  exact ⟨h1, h2.mono h.nonneg (by omega)⟩

theorem totalPrizeOfTourM_eq (h : SmallValues g.n cost prize B) {t : List Nat} (ht : t.length ≤ g.n + 3) :
    totalPrizeOfTourM prize t = totalPrizeOfTour prize t ∧ ∀ p, totalPrizeOfTour prize t = .ok p → WithinB B (g.n + 3) p := by
  cases t with
  | nil => exact ⟨rfl, fun p hp => by cases hp⟩
  | cons x t =>
    obtain ⟨h1, h2⟩ := totalPrizeM_eq h (l := (x :: t).dropLast) (by rw [List.length_dropLast]; omega)
    refine ⟨h1, fun p hp => ?_⟩
    obtain rfl := Res.ok.inj hp
    exact h2

theorem pathExtensionLoopM_eq (h : SmallValues g.n cost prize B) (O : FloatOps F) (hO : O.SignSound) (hg : g.WF) {r : Nat} (hp : ∀ v, 0 ≤ prize v)
    (step depth : Int) (hs : 1 ≤ step) (rem : Nat) (first : Bool) (avg : Option F) (t : List Nat) (ht : IsTour g r t) :
    pathExtensionLoopM O g cost prize r step depth rem first avg t = pathExtensionLoop O g cost prize r step depth rem first avg t := by
  induction rem generalizing first avg t with
  | zero => rfl
  | succ rem ih =>
    rw [pathExtensionLoopM, pathExtensionLoop, if_neg ht.ne_nil, if_neg ht.ne_nil]
    cases hf : stepFits step t with
    | false => rfl
    | true =>
      have hst := (stepFits_iff ht.ne_nil).1 hf
      obtain ⟨es, h1, h2, h3⟩ := findExtensionPaths_spec O hO hg ht cost prize step.toNat depth (by omega) hst.2
      rw [if_neg (by simp), if_neg (by simp), findExtensionPathsM_eq h O (ht.length_le hg), h1]
      simp only [Res.ok_bind]
      by_cases hn : numFeasibleExtensions (es.map (·.feasible)) > 0
      · obtain ⟨k, e, hk, hke, hfe⟩ := selected_entry O es hn
        have hk0 : ¬ ((k : Int) < 0) := by omega
        simp only [hn, if_true, hk, hk0, if_false, Int.toNat_natCast, hke]
        obtain ⟨t1, s1, s2, -, -⟩ := swap_nonneg ht hp hst.2 ((h3 k e hke).1 hfe).2
        simp only [s1, Res.ok_bind]
        cases avg <;> simp only [ih _ _ t1 s2]
      · simp only [hn, if_false]

theorem pathExtensionUntilLoopM_eq (h : SmallValues g.n cost prize B) (O : FloatOps F) (hO : O.SignSound) (hg : g.WF) {r : Nat}
    (step depth : Int) (hs : 1 ≤ step) (rem : Nat) (t : List Nat) (ht : IsTour g r t) :
    pathExtensionUntilLoopM O g cost prize r step depth rem t = pathExtensionUntilLoop O g cost prize r step depth rem t := by
  induction rem generalizing t with
  | zero => rfl
  | succ rem ih =>
    rw [pathExtensionUntilLoopM, pathExtensionUntilLoop]
    cases hf : stepFits step t with
    | false => rfl
    | true =>
      have hst := (stepFits_iff ht.ne_nil).1 hf
      obtain ⟨es, h1, h2, h3⟩ := findExtensionPaths_spec O hO hg ht cost prize step.toNat depth (by omega) hst.2
      rw [if_neg (by simp), if_neg (by simp), findExtensionPathsM_eq h O (ht.length_le hg), h1]
      simp only [Res.ok_bind]
      by_cases hn : numFeasibleExtensions (es.map (·.feasible)) > 0
      · obtain ⟨k, e, hk, hke, hfe⟩ := selected_entry O es hn
        have hk0 : ¬ ((k : Int) < 0) := by omega
        simp only [hn, if_true, hk, hk0, if_false, Int.toNat_natCast, hke]
        have hki : k < t.length - 1 := by
          have := (List.getElem?_eq_some_iff.1 hke).1; omega
        obtain ⟨t1, s1, s2, -, -⟩ := swap_mod ht hki hst.2 ((h3 k e hke).1 hfe).2
        simp only [s1, Res.ok_bind, ih t1 s2]
      · simp only [hn, if_false]

theorem pathExtensionUntilM_eq (h : SmallValues g.n cost prize B) (O : FloatOps F) (hO : O.SignSound) (hg : g.WF) {r : Nat}
    (quota step depth : Int) (hs : 1 ≤ step) {t : List Nat} (ht : IsTour g r t) :
    pathExtensionUntilPrizeFeasibleM O g t cost prize r quota step depth = pathExtensionUntilPrizeFeasible O g t cost prize r quota step depth := by
  have hl := ht.length_le hg
  rw [pathExtensionUntilPrizeFeasibleM, pathExtensionUntilPrizeFeasible, (totalPrizeOfTourM_eq h (by omega)).1,
    pathExtensionUntilLoopM_eq h O hO hg step depth hs g.n t ht]

theorem gainLoopM_eq (h : SmallValues g.n cost prize B) (O : FloatOps F) (v i u : Nat) (l : List Nat) (st : GainEntry F) :
    gainLoopM O g cost prize v i u l st = gainLoop O g cost prize v i u l st := by
  induction l generalizing i u st with
  | nil => rfl
  | cons w rest ih =>
    rw [gainLoopM, gainLoop]
    cases g.edge u v with
    | throw e => rfl
    | ub e => rfl
    | ok uv =>
      cases g.edge v w with
      | throw e => rfl
      | ub e => rfl
      | ok vw =>
        cases g.edge u w with
        | throw e => rfl
        | ub e => rfl
        | ok uw =>
          simp only [Res.ok_bind]
          cases uw with
          | none => rfl
          | some euw =>
            cases vw with
            | none => exact ih _ _ _
            | some evw =>
              cases uv with
              | none => exact ih _ _ _
              | some euv =>
                have h1 := (withinB_one (h.cost euv)).add (withinB_one (h.cost evw))
                simp only [unitaryGainM, h.int32 h1 (by omega), h.int32 (h1.sub (withinB_one (h.cost euw))) (by omega), Res.ok_bind, unitaryGain]
                exact ih _ _ _

theorem unitaryGainOfVertexM_eq (h : SmallValues g.n cost prize B) (O : FloatOps F) (t : List Nat) (v : Nat) :
    unitaryGainOfVertexM O g t cost prize v = unitaryGainOfVertex O g t cost prize v := by
  cases t with
  | nil => rfl
  | cons u rest => exact gainLoopM_eq h O v 0 u rest _

theorem biggestGainLoopM_eq (h : SmallValues g.n cost prize B) (O : FloatOps F) (t : List Nat) (inTour : Nat → Bool) (vs : List Nat)
    (st : GainMap F × Option Nat × F) : biggestGainLoopM O g t cost prize inTour vs st = biggestGainLoop O g t cost prize inTour vs st := by
  induction vs generalizing st with
  | nil => rfl
  | cons v vs ih =>
    obtain ⟨gm, best, bg⟩ := st
    simp only [biggestGainLoopM, biggestGainLoop, unitaryGainOfVertexM_eq h, ih]

theorem findVertexM_eq (h : SmallValues g.n cost prize B) (O : FloatOps F) (t : List Nat) (inTour : Nat → Bool) (gm : GainMap F) :
    findVertexWithBiggestGainM O g t cost prize inTour gm = findVertexWithBiggestGain O g t cost prize inTour gm := by
  simp only [findVertexWithBiggestGainM, findVertexWithBiggestGain, biggestGainLoopM_eq h]

theorem extensionUnitaryGainLoopM_eq (h : SmallValues g.n cost prize B) (O : FloatOps F) (fuel : Nat) (avg : Option F) (inTour : Nat → Bool) (gm : GainMap F)
    (t : List Nat) : extensionUnitaryGainLoopM O g cost prize fuel avg inTour gm t = extensionUnitaryGainLoop O g cost prize fuel avg inTour gm t := by
  induction fuel generalizing avg inTour gm t with
  | zero => rfl
  | succ fuel ih =>
    rw [extensionUnitaryGainLoopM, extensionUnitaryGainLoop, findVertexM_eq h]
    cases findVertexWithBiggestGain O g t cost prize inTour gm with
    | throw e => rfl
    | ub e => rfl
    | ok x =>
      obtain ⟨gm', best⟩ := x
      cases best with
      | none => rfl
      | some v =>
        simp only [Res.ok_bind, ih]
        cases avg <;> cases gm' v <;> rfl

theorem extensionUntilLoopM_eq (h : SmallValues g.n cost prize B) (O : FloatOps F) (quota : Int) (fuel attempts : Nat) (insert : Bool) (cur : Int) (k : Nat)
    (hc : WithinB B k cur) (hk : k + fuel ≤ 2 * (g.n + 3)) (inTour : Nat → Bool) (gm : GainMap F) (t : List Nat) :
    extensionUntilLoopM O g cost prize quota fuel attempts insert cur inTour gm t =
      extensionUntilLoop O g cost prize quota fuel attempts insert cur inTour gm t := by
  induction fuel generalizing attempts insert cur k inTour gm t with
  | zero => rfl
  | succ fuel ih =>
    rw [extensionUntilLoopM, extensionUntilLoop, findVertexM_eq h]
    split
    · cases findVertexWithBiggestGain O g t cost prize inTour gm with
      | throw e => rfl
      | ub e => rfl
      | ok x =>
        obtain ⟨gm', best⟩ := x
        cases best with
        | none => rfl
        | some v =>
          have h1 := hc.add (withinB_one (h.prize v))
          simp only [Res.ok_bind, h.int32 h1 (by omega)]
          cases insertBiggestGainVertex t v gm' with
          | throw e => rfl
          | ub e => rfl
          | ok t' => exact ih _ _ _ _ h1 (by omega) _ _ _
    · rfl

theorem relaxEdgesM_eq (h : SmallValues g.n cost prize B) (mark : Nat → Bool) (u : Nat) {du : Int} {k : Nat} (hdu : WithinB B k du) (hk : k ≤ g.n + 1)
    (l : List (Nat × Nat)) (st : DijState) (hst : ∀ v d, st.dist v = some d → WithinB B (k + 1) d) :
    relaxEdgesM cost mark u du l st = relaxEdges cost mark u du l st ∧
      ∀ st', relaxEdges cost mark u du l st = .ok st' → ∀ v d, st'.dist v = some d → WithinB B (k + 1) d := by
  induction l generalizing st with
  | nil => exact ⟨rfl, fun st' h' => by cases h'; exact hst⟩
  | cons x rest ih =>
    obtain ⟨e, v⟩ := x
    rw [relaxEdgesM, relaxEdges]
    by_cases hn : cost e < 0
    · rw [if_pos hn, if_pos hn]
      exact ⟨rfl, fun st' h' => by cases h'⟩
    · rw [if_neg hn, if_neg hn]
      have h1 := hdu.add (withinB_one (h.cost e))
      have hlt : du + cost e < 2147483647 := by
        have h2 := h1.mono h.nonneg (show k + 1 ≤ g.n + 2 by omega)
        have h3 := h2.2
        have h4 := h.fits
        have h5 := h.nonneg
        have h6 : (0 : Int) ≤ (g.n : Int) * B := Int.mul_nonneg (by omega) h5
        push_cast at h3
        have e1 : ((g.n : Int) + 2) * B = g.n * B + 2 * B := by ring
        have e2 : 2 * ((g.n : Int) + 3) * B = 2 * (g.n * B) + 6 * B := by ring
        omega
      have hupd : ∀ y d, upd st.dist v (some (du + cost e)) y = some d → WithinB B (k + 1) d := by
        intro y d hy
        rw [upd] at hy
        split at hy
        · cases hy; exact h1
        · exact hst y d hy
      generalize (if mark v = true then upd st.color v Color.black else st.color) = color
      simp only
      cases hc : color v with
      | white =>
        simp only [h.int32 h1 (by omega), Res.ok_bind, hlt, if_true]
        exact ih _ hupd
      | gray =>
        simp only
        cases hd : st.dist v with
        | none => exact ⟨rfl, fun st' h' => by cases h'⟩
        | some dv =>
          simp only [h.int32 h1 (by omega), h.int32 ((hst v dv hd).add (withinB_one (h.cost e))) (by omega), Res.ok_bind]
          split
          · exact ih _ hupd
          · exact ih _ hst
      | black => exact ih _ hst

theorem dijkstraLoopM_eq (h : SmallValues g.n cost prize B) (mark : Nat → Bool) (target : Option Nat) (pick : Pick) (fuel k : Nat) (hk : k + fuel ≤ g.n + 2)
    (st : DijState) (hst : ∀ v d, st.dist v = some d → WithinB B k d) :
    dijkstraLoopM g cost mark target pick fuel st = dijkstraLoop g cost mark target pick fuel st := by
  induction fuel generalizing k st with
  | zero => rfl
  | succ fuel ih =>
    rw [dijkstraLoopM, dijkstraLoop]
    split
    · rfl
    · cases hd : st.dist (pick fuel st.dist st.queue) with
      | none => simp only [hd]
      | some du =>
        obtain ⟨h1, h2⟩ := relaxEdgesM_eq h mark (pick fuel st.dist st.queue) (hst _ _ hd) (by omega) (g.outEdges (pick fuel st.dist st.queue))
          { st with queue := st.queue.erase (pick fuel st.dist st.queue) } (fun v d hv => (hst v d hv).mono h.nonneg (by omega))
        simp only [hd, h1]
        cases hr : relaxEdges cost mark (pick fuel st.dist st.queue) du (g.outEdges (pick fuel st.dist st.queue))
          { st with queue := st.queue.erase (pick fuel st.dist st.queue) } with
        | throw e => rfl
        | ub e => rfl
        | ok st' =>
          simp only [Res.ok_bind]
          split
          · rfl
          · exact ih (k + 1) (by omega) _ (h2 st' hr)

theorem dijkstraM_eq (h : SmallValues g.n cost prize B) (mark : Nat → Bool) (target : Option Nat) (pick : Pick) (source : Nat) :
    dijkstraM g cost mark target pick source = dijkstra g cost mark target pick source := by
  rw [dijkstraM, dijkstra]
  split
  · refine dijkstraLoopM_eq h mark target pick _ 0 (by omega) _ fun v d hv => ?_
    simp only [upd] at hv
    split at hv
    · cases hv; exact withinB_zero B
    · cases hv
  · rfl

theorem subPathLoopM_eq (h : SmallValues g.n cost prize B) (tour : List Nat) (quota : Int) (root : Nat) (m pos : Nat) (sp : SubPath) (k : Nat)
    (hsp : WithinB B k sp.prizeOfPath) (hk : k + m ≤ 2 * (g.n + 3)) :
    subPathLoopM tour prize quota root m pos sp = subPathLoop tour prize quota root m pos sp ∧
      ∀ sp', subPathLoop tour prize quota root m pos sp = .ok sp' → sp'.path.length ≤ sp.path.length + m := by
  induction m generalizing pos sp k with
  | zero => exact ⟨rfl, fun sp' h' => by cases h'; omega⟩
  | succ m ih =>
    rw [subPathLoopM, subPathLoop]
    split
    · generalize (if pos = tour.length then 1 else pos) = q
      simp only
      cases tour[q]? with
      | none => exact ⟨rfl, fun sp' h' => by cases h'⟩
      | some c =>
        have h1 := hsp.add (withinB_one (h.prize c))
        simp only [h.int32 h1 (by omega), Res.ok_bind]
        split
        · exact ⟨rfl, fun sp' h' => by cases h'; simp⟩
        · obtain ⟨r1, r2⟩ := ih (q + 1) { sp with path := sp.path ++ [c], prizeOfPath := sp.prizeOfPath + prize c, rootSeen := sp.rootSeen || decide (c = root) }
            (k + 1) h1 (by omega)
          refine ⟨r1, fun sp' h' => ?_⟩
          have := r2 sp' h'
          simp only [List.length_append, List.length_cons, List.length_nil] at this
          omega
    · exact ⟨rfl, fun sp' h' => by cases h'; omega⟩

theorem getSubPathOverTourM_eq (h : SmallValues g.n cost prize B) {tour : List Nat} (ht : tour.length ≤ g.n + 1) (index : Nat) (quota : Int) (root : Nat) :
    getSubPathOverTourM tour index prize quota root = getSubPathOverTour tour index prize quota root ∧
      ∀ sp, getSubPathOverTour tour index prize quota root = .ok sp → sp.path.length ≤ g.n + 1 := by
  rw [getSubPathOverTourM, getSubPathOverTour]
  cases hi : tour[index]? with
  | none => exact ⟨rfl, fun sp' h' => by cases h'⟩
  | some f =>
    have hlt := (List.getElem?_eq_some_iff.1 hi).1
    obtain ⟨r1, r2⟩ := subPathLoopM_eq h tour quota root (tour.length - 2) (index + 1)
      { path := [f], prizeOfPath := prize f, rootSeen := decide (f = root), feasibleFound := false } 1 (withinB_one (h.prize f)) (by omega)
    refine ⟨r1, fun sp' h' => ?_⟩
    have := r2 sp' h'
    simp only [List.length_cons, List.length_nil] at this
    omega

theorem collapseViaM_eq (h : SmallValues g.n cost prize B) (quota : Int) {internal : List Nat} (hi : internal.length ≤ g.n + 1) (source target : Nat)
    (l : List Nat) :
    collapseViaM g prize quota (totalPrize prize internal) internal source target l = collapseVia g prize quota internal source target l ∧
      ∀ ps, collapseVia g prize quota internal source target l = .ok ps → ∀ p ∈ ps, p.length ≤ g.n + 3 := by
  induction l with
  | nil => exact ⟨rfl, fun ps h' => by cases h'; simp⟩
  | cons c cs ih =>
    have h1 := (totalPrizeM_within h hi (by omega)).2.add (withinB_one (h.prize c))
    rw [collapseViaM, collapseVia, h.int32 h1 (by omega), ih.1]
    cases g.edge c target with
    | throw e => exact ⟨rfl, fun ps h' => by cases h'⟩
    | ub e => exact ⟨rfl, fun ps h' => by cases h'⟩
    | ok e =>
      cases hr : collapseVia g prize quota internal source target cs with
      | throw e => exact ⟨rfl, fun ps h' => by cases h'⟩
      | ub e => exact ⟨rfl, fun ps h' => by cases h'⟩
      | ok rest =>
        have ih2 := ih.2 rest hr
        simp only [Res.ok_bind]
        refine ⟨trivial, fun ps h' p hp => ?_⟩
        split at h'
        · cases h'
          rcases List.mem_cons.1 hp with rfl | hp
          · simp
          · exact ih2 p hp
        · cases h'
          exact ih2 p hp

theorem collapseShortestM_eq (h : SmallValues g.n cost prize B) (quota : Int) {internal : List Nat} (hi : internal.length ≤ g.n + 1) (source target : Nat)
    (pick : Pick) :
    collapseShortestM g cost prize quota (totalPrize prize internal) internal source target pick =
        collapseShortest g cost prize quota internal source target pick ∧
      ∀ ps, collapseShortest g cost prize quota internal source target pick = .ok ps → ∀ p ∈ ps, p.length ≤ g.n + 3 := by
  rw [collapseShortestM, collapseShortest]
  simp only [dijkstraM_eq h]
  cases dijkstra g cost (fun v => decide (v ∈ internal) && decide (v ≠ source) && decide (v ≠ target)) (some target) pick source with
  | throw e => exact ⟨rfl, fun ps h' => by cases h'⟩
  | ub e => exact ⟨rfl, fun ps h' => by cases h'⟩
  | ok x =>
    obtain ⟨found, st⟩ := x
    cases found with
    | false => exact ⟨rfl, fun ps h' => by cases h'; simp⟩
    | true =>
      have hl := pathInTree_length st.pred g.n target
      obtain ⟨a1, a2⟩ := totalPrizeM_within h hl (by omega)
      have b1 := (totalPrizeM_within h hi (by omega)).2.add a2
      have b2 := b1.sub (withinB_one (h.prize source))
      have b3 := b2.sub (withinB_one (h.prize target))
      simp only [Res.ok_bind, if_true, a1, h.int32 b1 (by omega), h.int32 b2 (by omega), h.int32 b3 (by omega)]
      refine ⟨trivial, fun ps h' p hp => ?_⟩
      split at h'
      · cases h'
        obtain rfl := List.mem_singleton.1 hp
        omega
      · cases h'; simp at hp

theorem findCollapsePathsM_eq (h : SmallValues g.n cost prize B) (quota : Int) {internal : List Nat} (hi : internal.length ≤ g.n + 1) (useShortest : Bool)
    (pick : Pick) :
    findCollapsePathsM g cost prize quota internal useShortest pick = findCollapsePaths g cost prize quota internal useShortest pick ∧
      ∀ ps, findCollapsePaths g cost prize quota internal useShortest pick = .ok ps → ∀ p ∈ ps, p.length ≤ g.n + 3 := by
  rw [findCollapsePathsM, findCollapsePaths]
  cases internal.head? with
  | none => exact ⟨rfl, fun ps h' => by cases h'⟩
  | some target =>
    cases internal.getLast? with
    | none => exact ⟨rfl, fun ps h' => by cases h'⟩
    | some source =>
      simp only [(totalPrizeM_within h hi (by omega)).1, Res.ok_bind]
      cases g.adjacentVertices source with
      | throw e => exact ⟨rfl, fun ps h' => by cases h'⟩
      | ub e => exact ⟨rfl, fun ps h' => by cases h'⟩
      | ok nbrs =>
        obtain ⟨a1, a2⟩ := collapseViaM_eq h quota hi source target nbrs
        obtain ⟨b1, b2⟩ := collapseShortestM_eq h quota hi source target pick
        simp only [Res.ok_bind, a1]
        cases hv : collapseVia g prize quota internal source target nbrs with
        | throw e => exact ⟨rfl, fun ps h' => by cases h'⟩
        | ub e => exact ⟨rfl, fun ps h' => by cases h'⟩
        | ok via =>
          have a2 := a2 via hv
          cases useShortest with
          | false => exact ⟨rfl, fun ps h' => by cases h'; exact a2⟩
          | true =>
            simp only [Res.ok_bind, if_true, b1]
            cases hs : collapseShortest g cost prize quota internal source target pick with
            | throw e => exact ⟨trivial, fun ps h' => by cases h'⟩
            | ub e => exact ⟨trivial, fun ps h' => by cases h'⟩
            | ok sps =>
              have b2 := b2 sps hs
              refine ⟨trivial, fun ps h' p hp => ?_⟩
              cases h'
              rcases List.mem_append.1 hp with hp | hp
              · exact a2 p hp
              · exact b2 p hp

theorem bestCollapseLoopM_eq (h : SmallValues g.n cost prize B) {ic : Int} (hic : WithinB B (g.n + 3) ic) (i : Nat) (ps : List (List Nat))
    (hps : ∀ p ∈ ps, p.length ≤ g.n + 3) (st : Option Nat × Int) : bestCollapseLoopM g cost ic i ps st = bestCollapseLoop g cost ic i ps st := by
  induction ps generalizing i st with
  | nil => rfl
  | cons p ps ih =>
    obtain ⟨best, bc⟩ := st
    obtain ⟨a1, a2⟩ := totalCostM_eq h (hps p (by simp))
    rw [bestCollapseLoopM, bestCollapseLoop, a1]
    cases hc : totalCost g cost p with
    | throw e => rfl
    | ub e => rfl
    | ok c =>
      simp only [Res.ok_bind, h.int32 ((a2 c hc).add hic) (by omega)]
      exact ih _ (fun q hq => hps q (List.mem_cons_of_mem _ hq)) _

theorem collapseStepM_eq (h : SmallValues g.n cost prize B) {tour : List Nat} (ht : tour.length ≤ g.n + 1) (quota : Int) (root : Nat) (useShortest : Bool)
    (pick : Pick) (index : Nat) (st : List Nat × Int) :
    collapseStepM g tour cost prize quota root useShortest pick index st = collapseStep g tour cost prize quota root useShortest pick index st := by
  obtain ⟨a1, a2⟩ := getSubPathOverTourM_eq h ht index quota root
  rw [collapseStepM, collapseStep, a1]
  cases hs : getSubPathOverTour tour index prize quota root with
  | throw e => rfl
  | ub e => rfl
  | ok sp =>
    have hl := a2 sp hs
    obtain ⟨b1, b2⟩ := findCollapsePathsM_eq h quota hl useShortest pick
    obtain ⟨c1, c2⟩ := totalCostM_eq h (l := sp.path) (by omega)
    simp only [Res.ok_bind, b1, c1]
    split
    · cases hp : findCollapsePaths g cost prize quota sp.path useShortest pick with
      | throw e => rfl
      | ub e => rfl
      | ok ps =>
        cases hc : totalCost g cost sp.path with
        | throw e => rfl
        | ub e => rfl
        | ok ic =>
          simp only [Res.ok_bind, bestCollapseLoopM_eq h (c2 ic hc) 0 ps (b2 ps hp)]
          rfl
    · rfl

theorem collapseLoopM_eq (h : SmallValues g.n cost prize B) {tour : List Nat} (ht : tour.length ≤ g.n + 1) (quota : Int) (root : Nat) (useShortest : Bool)
    (pick : Nat → Pick) (i : Nat) (st : List Nat × Int) :
    collapseLoopM g tour cost prize quota root useShortest pick i st = collapseLoop g tour cost prize quota root useShortest pick i st := by
  induction i generalizing st with
  | zero => rfl
  | succ i ih =>
    rw [collapseLoopM, collapseLoop, collapseStepM_eq h ht]
    congr 1
    funext st
    exact ih st

theorem collapseM_eq (h : SmallValues g.n cost prize B) {tour : List Nat} (ht : tour.length ≤ g.n + 1) (quota : Int) (root : Nat) (useShortest : Bool)
    (pick : Nat → Pick) :
    collapseM g tour cost prize quota root useShortest pick = collapse g tour cost prize quota root useShortest pick := by
  rw [collapseM, collapse, (totalCostM_eq h (by omega)).1]
  simp only [collapseLoopM_eq h ht]

theorem extendUntilFeasibleLoopM_eq (h : SmallValues g.n cost prize B) (O : FloatOps F) (hO : O.SignSound) (hg : g.WF) {r : Nat}
    (quota depth : Int) (rem : Nat) (step : Int) (hs : 1 ≤ step) (t : List Nat) (ht : IsTour g r t) :
    extendUntilFeasibleLoopM O g cost prize quota r depth rem step t = extendUntilFeasibleLoop O g cost prize quota r depth rem step t := by
  induction rem generalizing step t with
  | zero => rfl
  | succ rem ih =>
    obtain ⟨t1, h1, h2, -⟩ := C15_until_feasible_tour O hO g hg r t ht cost prize quota step depth hs
    have hl := h2.length_le hg
    rw [extendUntilFeasibleLoopM, extendUntilFeasibleLoop, pathExtensionUntilM_eq h O hO hg quota step depth hs ht, h1]
    simp only [Res.ok_bind, (totalPrizeOfTourM_eq h (by omega : t1.length ≤ g.n + 3)).1, ih (step + 1) (by omega) t1 h2]

theorem pingPongLoopM_eq (h : SmallValues g.n cost prize B) (O : FloatOps F) (hO : O.SignSound) (hg : g.WF) {r : Nat} (hp : ∀ v, 0 ≤ prize v)
    (quota depth : Int) (useShortest : Bool) {pick : Nat → Nat → Pick} (hpick : ∀ j i, (pick j i).Heap) (rem : Nat) (step : Int) (hs : 1 ≤ step)
    (t : List Nat) (ht : IsTour g r t) (bc : Int) :
    pingPongLoopM O g cost prize quota r useShortest pick depth rem step (t, bc) =
      pingPongLoop O g cost prize quota r useShortest pick depth rem step (t, bc) := by
  induction rem generalizing step t bc with
  | zero => rfl
  | succ rem ih =>
    obtain ⟨t1, h1, h2, -⟩ := C12_path_extension_tour O hO g hg r t ht cost prize hp step depth hs
    rw [pingPongLoopM, pingPongLoop, pathExtensionM, pathExtensionLoopM_eq h O hO hg hp step depth hs _ _ _ t ht]
    rw [pathExtension] at h1 ⊢
    simp only [h1, Res.ok_bind, collapseM_eq h (h2.length_le hg)]
    rcases collapse_spec' hg h2 cost prize hp quota useShortest (hpick rem) with ⟨r1, r2⟩ | ⟨t2, r1, r2, -⟩
    · simp only [r1]; rfl
    · have hl := r2.length_le hg
      simp only [r1, Res.ok_bind, (totalCostM_eq h (by omega : t2.length ≤ g.n + 3)).1]
      cases totalCost g cost t2 with
      | throw e => rfl
      | ub e => rfl
      | ok c =>
        simp only [Res.ok_bind, reorder_tour r2, ih (step + 1) (by omega) t2 r2, ih (step + 1) (by omega) t ht]

end Pctsp
