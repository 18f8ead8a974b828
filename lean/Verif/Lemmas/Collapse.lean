import Verif.Model.Collapse
import Verif.Lemmas.Dijkstra
import Verif.Lemmas.Replace
import Verif.Lemmas.Sort
import Verif.Props.Walk

/-! Helper lemmas: collapse. -/

namespace Pctsp

theorem subPathLoop_spec (t : List Nat) (prize : Nat → Int) (quota : Int) (root : Nat) (h2 : 2 ≤ t.length)
    (m pos : Nat) (sp : SubPath) (hpos : pos ≤ t.length) (hm : m + pos ≤ t.length + (t.length - 1)) (hm' : m ≤ t.length - 1)
    (hseen : sp.rootSeen = decide (root ∈ sp.path)) (hprize : sp.prizeOfPath = prizeSum prize sp.path) (hff : sp.feasibleFound = false) :
    ∃ sp' k, subPathLoop t prize quota root m pos sp = .ok sp' ∧ k ≤ m ∧ sp'.path = sp.path ++ (t.drop pos ++ t.tail).take k ∧
      sp'.rootSeen = decide (root ∈ sp'.path) ∧ sp'.prizeOfPath = prizeSum prize sp'.path ∧
      (sp'.feasibleFound = true → k < m ∧ prizeSum prize sp'.path < quota) := by
  induction m generalizing pos sp with
  | zero => exact ⟨sp, 0, rfl, by omega, by simp, hseen, hprize, by simp [hff]⟩
  | succ m ih =>
    rw [subPathLoop]
    by_cases hq : sp.prizeOfPath < quota
    · rw [if_pos hq]
      simp only
      have key : ∀ pos1, pos1 < t.length → m + 1 + pos1 ≤ t.length + (t.length - 1) →
          (∀ k ≤ m + 1, (t.drop pos1 ++ t.tail).take k = (t.drop pos ++ t.tail).take k) →
          ∃ sp' k, (match t[pos1]? with
            | none => Res.ub "getSubPathOverTour: iterator out of range"
            | some c =>
              if sp.prizeOfPath + prize c ≥ quota then .ok { sp with feasibleFound := true }
              else subPathLoop t prize quota root m (pos1 + 1)
                { sp with path := sp.path ++ [c], prizeOfPath := sp.prizeOfPath + prize c, rootSeen := (sp.rootSeen || decide (c = root)) }) = .ok sp' ∧ k ≤ m + 1 ∧
            sp'.path = sp.path ++ (t.drop pos ++ t.tail).take k ∧
            sp'.rootSeen = decide (root ∈ sp'.path) ∧ sp'.prizeOfPath = prizeSum prize sp'.path ∧
            (sp'.feasibleFound = true → k < m + 1 ∧ prizeSum prize sp'.path < quota) := by
        intro pos1 hp1 hm1 htake
        rw [List.getElem?_eq_getElem hp1]
        simp only
        by_cases hf : sp.prizeOfPath + prize t[pos1] ≥ quota
        · rw [if_pos hf]
          refine ⟨_, 0, rfl, by omega, by simp, hseen, hprize, fun _ => ⟨by omega, ?_⟩⟩
          simp only; rw [← hprize]; exact hq
        · rw [if_neg hf]
          obtain ⟨sp', k, r1, r2, r3, r4, r5, r6⟩ := ih (pos1 + 1) { sp with path := sp.path ++ [t[pos1]], prizeOfPath := sp.prizeOfPath + prize t[pos1], rootSeen := (sp.rootSeen || decide (t[pos1] = root)) } (by omega) (by omega) (by omega)
                    (by simp only [hseen]; rw [Bool.eq_iff_iff]; simp; tauto) (by simp only; rw [hprize]; simp) hff
          refine ⟨sp', k + 1, r1, by omega, ?_, r4, r5, fun h => ⟨by have := (r6 h).1; omega, (r6 h).2⟩⟩
          rw [r3, ← htake (k + 1) (by omega), List.drop_eq_getElem_cons hp1, List.cons_append, List.take_succ_cons, List.append_assoc]
          rfl
      by_cases hp : pos = t.length
      · rw [if_pos hp]
        refine key 1 (by omega) (by omega) ?_
        intro k hk
        subst hp
        rw [List.drop_one, List.drop_length, List.nil_append, List.take_append_of_le_length (by simp; omega)]
      · rw [if_neg hp]
        exact key pos (by omega) hm (fun _ _ => rfl)
    · rw [if_neg hq]
      exact ⟨sp, 0, rfl, by omega, by simp, hseen, hprize, by simp [hff]⟩

/-- The cyclic reading of a closed tour. -/
theorem cyclic_nodup {g : Graph} {a : Nat} {t : List Nat} (ht : IsTour g a t) {i : Nat} (hi : i < t.length) :
    ((t.drop i ++ t.tail).take (t.length - 1)).Nodup := by
  have hd := ht.nodup
  have htail : t.tail.Nodup := by
    obtain ⟨m, rfl⟩ := ht.shape
    rw [dropLast_tour] at hd
    rw [List.tail_cons]
    rw [List.nodup_append]
    simp at hd
    refine ⟨hd.2, by simp, ?_⟩
    intro x hx y hy; simp at hy; subst hy; rintro rfl; exact hd.1 hx
  by_cases h0 : i = 0
  · subst h0
    rw [List.drop_zero, List.take_append_of_le_length (by omega), ← List.dropLast_eq_take]
    exact hd
  · have e1 : t.drop i = t.tail.drop (i - 1) := by
      rw [← List.drop_one, List.drop_drop]; congr 1; omega
    have e2 : (t.drop i ++ t.tail).take (t.length - 1) = t.tail.drop (i - 1) ++ t.tail.take (i - 1) := by
      rw [List.take_append, e1, List.take_of_length_le (by simp; omega)]
      congr 2
      simp; omega
    rw [e2]
    exact (List.perm_append_comm.nodup_iff).1 (by rw [List.take_append_drop]; exact htail)

theorem cyclic_walk {g : Graph} {a : Nat} {t : List Nat} (ht : IsTour g a t) {i : Nat} (hi : i < t.length) :
    IsWalk g (t.drop i ++ t.tail) := by
  obtain ⟨m, hm⟩ := ht.shape
  have hw := ht.walk
  have hlast : (t.drop i).getLast? = some a := by
    rw [List.getLast?_drop, if_neg (by omega), hm, ← List.cons_append, List.getLast?_concat]
  obtain ⟨X, hX⟩ := List.getLast?_eq_some_iff.1 hlast
  have htail : t = a :: t.tail := by rw [hm]; rfl
  rw [hX, List.append_assoc, List.singleton_append, isWalk_append]
  refine ⟨?_, by rw [← htail]; exact hw⟩
  rw [← hX]
  rw [← List.take_append_drop i t, ] at hw
  rw [hX] at hw ⊢
  intro p hp
  apply hw
  cases X with
  | nil => simp at hp
  | cons x X =>
    rw [List.cons_append] at hp ⊢
    rw [consec_append]
    exact List.mem_append_right _ hp

theorem isWalk_take {g : Graph} {l : List Nat} (h : IsWalk g l) (k : Nat) : IsWalk g (l.take k) := by
  rw [← List.take_append_drop k l] at h
  rcases List.eq_nil_or_concat (l.take k) with e | ⟨X, x, e⟩
  · rw [e]; simp
  · rw [List.concat_eq_append] at e
    rw [e] at h ⊢
    rw [List.append_assoc, List.singleton_append, isWalk_append] at h
    exact h.1

/-- What is known about the sub path of a round of `collapse`. -/
theorem getSubPathOverTour_spec {g : Graph} {a : Nat} {t : List Nat} (ht : IsTour g a t) (prize : Nat → Int) (quota : Int) (root : Nat)
    {i : Nat} (hi : i < t.length) :
    ∃ sp, getSubPathOverTour t i prize quota root = .ok sp ∧ sp.path ≠ [] ∧ sp.rootSeen = decide (root ∈ sp.path) ∧
      (sp.feasibleFound = true → prizeSum prize sp.path < quota) ∧ sp.path.Nodup ∧ IsWalk g sp.path ∧ (∀ x ∈ sp.path, x ∈ t) := by
  have h2 : 2 ≤ t.length := by
    obtain ⟨m, hm⟩ := ht.shape
    rw [hm]; simp
  obtain ⟨sp, k, h1, h3, h4, h5, h6, h7⟩ := subPathLoop_spec t prize quota root h2 (t.length - 2) (i + 1)
    { path := [t[i]], prizeOfPath := prize t[i], rootSeen := decide (t[i] = root), feasibleFound := false } (by omega) (by omega) (by omega)
    (by rw [Bool.eq_iff_iff]; simp; exact eq_comm) (by simp) rfl
  have hpath : sp.path = (t.drop i ++ t.tail).take (k + 1) := by
    rw [h4, List.drop_eq_getElem_cons hi]; rfl
  refine ⟨sp, ?_, ?_, h5, fun h => (h7 h).2, ?_, ?_, ?_⟩
  · rw [getSubPathOverTour, List.getElem?_eq_getElem hi]; exact h1
  · rw [h4]; simp
  · rw [hpath]
    have hn := cyclic_nodup ht hi
    have e : (t.drop i ++ t.tail).take (k + 1) = ((t.drop i ++ t.tail).take (t.length - 1)).take (k + 1) := by
      rw [List.take_take]; congr 1; omega
    rw [e]
    exact hn.sublist (List.take_sublist _ _)
  · rw [hpath]; exact isWalk_take (cyclic_walk ht hi) _
  · intro x hx
    rw [hpath] at hx
    have := List.mem_of_mem_take hx
    rcases List.mem_append.1 this with h | h
    · exact List.mem_of_mem_drop h
    · exact List.mem_of_mem_tail h

/-- An external path that closes the sub path `P`. -/
structure Closes (g : Graph) (prize : Nat → Int) (quota : Int) (P ext : List Nat) : Prop where
  head : ext.head? = P.getLast?
  last : ext.getLast? = P.head?
  walk : IsWalk g ext
  cases : (∃ f, P = [f] ∧ ext = [f] ∧ quota ≤ 0) ∨
    ∃ s t X, ext = s :: (X ++ [t]) ∧ X.Nodup ∧ (∀ x ∈ X, x ∉ P) ∧ quota ≤ prizeSum prize P + prizeSum prize X ∧ s ≠ t

theorem collapseVia_spec {g : Graph} (hg : g.WF) (prize : Nat → Int) (quota : Int) {P : List Nat} {s t : Nat}
    (hs : P.getLast? = some s) (ht : P.head? = some t) (cs : List Nat) (hcs : ∀ c ∈ cs, Adj g s c) :
    ∃ l, collapseVia g prize quota P s t cs = .ok l ∧ ∀ p ∈ l, Closes g prize quota P p := by
  induction cs with
  | nil => exact ⟨[], rfl, by simp⟩
  | cons c cs ih =>
    obtain ⟨l, h1, h2⟩ := ih (fun x hx => hcs x (List.mem_cons_of_mem _ hx))
    have hadj := hcs c (by simp)
    rw [collapseVia, Graph.edge, if_pos (hadj.lt_right hg), h1]
    simp only [Res.ok_bind]
    by_cases hc : (g.edgeIdx c t).isSome = true ∧ c ∉ P ∧ totalPrize prize P + prize c ≥ quota ∧ s ≠ t
    · rw [if_pos hc]
      refine ⟨_, rfl, ?_⟩
      intro p hp
      rcases List.mem_cons.1 hp with rfl | hp
      · obtain ⟨c1, c2, c3, c4⟩ := hc
        rw [totalPrize_eq] at c3
        refine ⟨by simp [hs], by simp [ht], ?_, Or.inr ⟨s, t, [c], rfl, by simp, by simpa using c2, by simpa using c3, c4⟩⟩
        simp only [isWalk_cons_cons, isWalk_singleton, and_true]
        exact ⟨hadj, edgeIdx_isSome_iff.1 c1⟩
      · exact h2 p hp
    · rw [if_neg hc]; exact ⟨l, rfl, h2⟩

theorem collapseShortest_spec {g : Graph} (hg : g.WF) (cost prize : Nat → Int) (quota : Int) {P : List Nat} {s t : Nat} (hP : P.Nodup)
    (hs : P.getLast? = some s) (ht : P.head? = some t) (hsn : s < g.n) {pick : Pick} (hpick : pick.Heap) :
    (collapseShortest g cost prize quota P s t pick = .throw .negativeEdge ∧ ∃ e < g.edges.length, cost e < 0) ∨
    ∃ l, collapseShortest g cost prize quota P s t pick = .ok l ∧ ∀ p ∈ l, Closes g prize quota P p := by
  unfold collapseShortest
  simp only
  rcases dijkstra_spec hg (cost := cost) (mark := fun v => decide (v ∈ P) && decide (v ≠ s) && decide (v ≠ t)) hpick hsn (by simp) t with
    ⟨h, e, u, v, he, hc, -⟩ | ⟨st, p, h, hp, h1, h2, h3, h4, h5, -⟩ | ⟨st, h, -⟩
  · left
    rw [h]
    refine ⟨rfl, e, ?_, hc⟩
    rcases he with he | he <;> exact (List.getElem?_eq_some_iff.1 he).1
  · right
    rw [h]
    simp only [Res.ok_bind, if_true, hp]
    split
    · rename_i hq
      refine ⟨[p], rfl, ?_⟩
      intro q hqm
      simp at hqm; subst hqm
      rw [totalPrize_eq, totalPrize_eq] at hq
      refine ⟨by rw [h2, hs], by rw [h3, ht], h4, ?_⟩
      cases q with
      | nil => simp at h2
      | cons x q =>
        simp at h2; subst h2
        rcases List.eq_nil_or_concat q with rfl | ⟨X, y, rfl⟩
        · left
          simp at h3; subst h3
          have : P = [x] := by
            cases P with
            | nil => simp at ht
            | cons z P =>
              simp at ht; subst ht
              rcases List.eq_nil_or_concat P with rfl | ⟨Y, w, rfl⟩
              · rfl
              · rw [List.concat_eq_append] at *
                rw [← List.cons_append, List.getLast?_concat] at hs
                simp at hs; subst hs
                simp at hP
          subst this
          exact ⟨x, rfl, rfl, by simp at hq; omega⟩
        · right
          rw [List.concat_eq_append] at *
          rw [← List.cons_append, List.getLast?_concat] at h3
          simp at h3; subst h3
          rw [List.nodup_cons, List.nodup_append] at h1
          obtain ⟨n1, n2, n3, n4⟩ := h1
          refine ⟨x, y, X, rfl, n2, ?_, ?_, by rintro rfl; simp at n1⟩
          · intro z hz hzP
            have hmark := (h5 z (by simp [hz])).2
            have : z ≠ x := by rintro rfl; simp [hz] at n1
            have : z ≠ y := n4 z hz y (by simp)
            simp_all
          · simp at hq; omega
    · exact ⟨[], rfl, by simp⟩
  · right
    rw [h]
    exact ⟨[], rfl, by simp⟩

theorem bestCollapseLoop_spec {g : Graph} (hg : g.WF) (cost : Nat → Int) (ic : Int) (i : Nat) (ps : List (List Nat))
    (hps : ∀ p ∈ ps, IsWalk g p) (best : Option Nat) (bc : Int) :
    ∃ best' bc', bestCollapseLoop g cost ic i ps (best, bc) = .ok (best', bc') ∧
      (best' = best ∧ bc' = bc ∨ ∃ j p, best' = some (i + j) ∧ ps[j]? = some p ∧ bc' = walkCost g cost p + ic ∧ bc' < bc) ∧
      (∀ p ∈ ps, bc' ≤ walkCost g cost p + ic) ∧ bc' ≤ bc := by
  induction ps generalizing i best bc with
  | nil => exact ⟨best, bc, rfl, Or.inl ⟨rfl, rfl⟩, by simp, by omega⟩
  | cons p ps ih =>
    rw [bestCollapseLoop, totalCost_of_isWalk hg cost (hps p (by simp))]
    simp only [Res.ok_bind]
    have hps' : ∀ p ∈ ps, IsWalk g p := fun q hq => hps q (List.mem_cons_of_mem _ hq)
    by_cases hlt : walkCost g cost p + ic < bc
    · rw [if_pos hlt]
      obtain ⟨best', bc', h1, h2, h3, h4⟩ := ih (i + 1) hps' (some i) (walkCost g cost p + ic)
      refine ⟨best', bc', h1, Or.inr ?_, ?_, by omega⟩
      · rcases h2 with ⟨rfl, rfl⟩ | ⟨j, q, rfl, hj, hq, hlt'⟩
        · exact ⟨0, p, rfl, rfl, rfl, hlt⟩
        · exact ⟨j + 1, q, by congr 1; omega, by simpa using hj, hq, by omega⟩
      · intro q hq
        rcases List.mem_cons.1 hq with rfl | hq
        · exact h4
        · exact h3 q hq
    · rw [if_neg hlt]
      obtain ⟨best', bc', h1, h2, h3, h4⟩ := ih (i + 1) hps' best bc
      refine ⟨best', bc', h1, ?_, ?_, h4⟩
      · rcases h2 with h2 | ⟨j, q, rfl, hj, hq, hlt'⟩
        · exact Or.inl h2
        · exact Or.inr ⟨j + 1, q, by congr 1; omega, by simpa using hj, hq, hlt'⟩
      · intro q hq
        rcases List.mem_cons.1 hq with rfl | hq
        · omega
        · exact h3 q hq

theorem reorder_length (t : List Nat) (r : Nat) : (reorderTourFromRoot t r).length = t.length := by
  rw [reorderTourFromRoot]
  split
  · rfl
  · rename_i h
    have h1 := congrArg List.length (List.takeWhile_append_dropWhile (p := fun x => decide (x ≠ r)) (l := t))
    have h2 := List.length_pos_iff.2 h
    simp only [List.length_append, List.length_tail, List.length_singleton] at h1 h2 ⊢
    omega

/-- The tour made of a sub path and a closing path. -/
theorem Closes.tour {g : Graph} {cost prize : Nat → Int} {quota : Int} {P ext : List Nat} (h : Closes g prize quota P ext) (hP : P.Nodup)
    (hw : IsWalk g P) :
    (∃ f, P = [f] ∧ ext = [f] ∧ quota ≤ 0) ∨
    ∃ a, IsTour g a (P ++ ext.tail) ∧ walkCost g cost (P ++ ext.tail) = walkCost g cost P + walkCost g cost ext ∧
      quota ≤ tourPrize prize (P ++ ext.tail) ∧ (∀ x ∈ P, x ∈ P ++ ext.tail) ∧ (prizeSum prize P < quota → 4 ≤ (P ++ ext.tail).length) := by
  rcases h.cases with h1 | ⟨s, t, X, rfl, hX, hd, hq, hst⟩
  · exact Or.inl h1
  · right
    have hh := h.head
    have hl := h.last
    simp at hh
    rw [← List.cons_append, List.getLast?_concat] at hl
    obtain ⟨Y, hY⟩ := List.getLast?_eq_some_iff.1 hh.symm
    obtain ⟨Z, hZ⟩ := List.head?_eq_some_iff.1 hl.symm
    have e : P ++ (s :: (X ++ [t])).tail = Y ++ s :: (X ++ [t]) := by rw [hY]; simp
    have hdl : (P ++ (s :: (X ++ [t])).tail).dropLast = P ++ X := by
      rw [List.tail_cons, ← List.append_assoc, List.dropLast_concat]
    refine ⟨t, ⟨⟨Z ++ X, by rw [hZ]; simp⟩, ?_, ?_⟩, ?_, ?_, fun x hx => List.mem_append_left _ hx, ?_⟩
    · rw [hdl, List.nodup_append]
      refine ⟨hP, hX, ?_⟩
      intro x hx y hy
      rintro rfl
      exact hd x hy hx
    · rw [e, isWalk_append]
      exact ⟨by rw [← hY]; exact hw, h.walk⟩
    · rw [e, walkCost_append, ← hY]
    · rw [tourPrize, hdl, prizeSum_append]; exact hq
    · intro hlow
      have hX0 : X ≠ [] := by
        rintro rfl
        simp at hq; omega
      have hXl := List.length_pos_iff.2 hX0
      have hP2 : 2 ≤ P.length := by
        rcases P with _ | ⟨p, _ | ⟨q, P⟩⟩
        · simp at hZ
        · simp at hh hl; exact absurd (hh.trans hl.symm) hst
        · simp
      simp; omega

/-- Invariant of the main loop of `collapse`. -/
def CollapseInv (g : Graph) (cost prize : Nat → Int) (quota : Int) (root : Nat) (t best : List Nat) (bc : Int) : Prop :=
  bc ≤ walkCost g cost t ∧ (best = t ∧ bc = walkCost g cost t ∨
    (bc < walkCost g cost t ∧ ((∃ a, IsTour g a best) ∧ root ∈ best ∧ walkCost g cost best = bc ∧ quota ≤ tourPrize prize best ∧ 4 ≤ best.length ∨
      best = [root] ∧ bc = 0 ∧ quota ≤ 0 ∧ prize root < quota)))

/-- No candidate of the round at position `i` is cheaper than `bc`. -/
def CollapseCands (g : Graph) (t : List Nat) (cost prize : Nat → Int) (quota : Int) (root : Nat) (useShortest : Bool) (pick : Pick)
    (i : Nat) (bc : Int) : Prop :=
  ∀ sp, getSubPathOverTour t i prize quota root = .ok sp → sp.rootSeen = true → sp.feasibleFound = true →
    ∃ l, findCollapsePaths g cost prize quota sp.path useShortest pick = .ok l ∧ ∀ p ∈ l, bc ≤ walkCost g cost p + walkCost g cost sp.path

theorem collapseStep_spec {g : Graph} (hg : g.WF) {a : Nat} {t : List Nat} (ht : IsTour g a t) (cost prize : Nat → Int) (quota : Int)
    (root : Nat) (useShortest : Bool) {pick : Pick} (hpick : pick.Heap) {i : Nat} (hi : i < t.length) (best : List Nat) (bc : Int)
    (hinv : CollapseInv g cost prize quota root t best bc) :
    (collapseStep g t cost prize quota root useShortest pick i (best, bc) = .throw .negativeEdge ∧ useShortest = true ∧
      ∃ e < g.edges.length, cost e < 0) ∨
    ∃ best' bc', collapseStep g t cost prize quota root useShortest pick i (best, bc) = .ok (best', bc') ∧
      CollapseInv g cost prize quota root t best' bc' ∧ bc' ≤ bc ∧
      CollapseCands g t cost prize quota root useShortest pick i bc' := by
  obtain ⟨sp, h1, hne, hseen, hff, hnd, hw, hmem⟩ := getSubPathOverTour_spec ht prize quota root hi
  rw [collapseStep, h1]
  simp only [Res.ok_bind]
  cases hc : (sp.rootSeen && sp.feasibleFound) with
  | false =>
      simp only [Bool.false_eq_true, if_false]
      refine Or.inr ⟨best, bc, rfl, hinv, Int.le_refl _, ?_⟩
      intro sp' e1 e2 e3
      rw [h1] at e1; cases e1
      simp [e2, e3] at hc
  | true =>
    simp only [if_true]
    simp at hc
    have hroot : root ∈ sp.path := by
      have := hc.1; rw [hseen] at this; simpa using this
    have hlow := hff hc.2
    obtain ⟨hd, hhd⟩ : ∃ x, sp.path.head? = some x := by
      cases h : sp.path with
      | nil => exact absurd h hne
      | cons x l => exact ⟨x, rfl⟩
    obtain ⟨ls, hls⟩ : ∃ x, sp.path.getLast? = some x := by
      cases h : sp.path.getLast? with
      | none => simp at h; exact absurd h hne
      | some x => exact ⟨x, rfl⟩
    have hlsn : ls < g.n := by
      have : ls ∈ t := hmem ls (List.mem_of_getLast? hls)
      obtain ⟨m, hm⟩ := ht.shape
      exact ht.walk.lt hg (by rw [hm]; simp) ls this
    -- the candidate paths
    have hpaths : (findCollapsePaths g cost prize quota sp.path useShortest pick = .throw .negativeEdge ∧ useShortest = true ∧
          ∃ e < g.edges.length, cost e < 0) ∨
        ∃ l, findCollapsePaths g cost prize quota sp.path useShortest pick = .ok l ∧ ∀ p ∈ l, Closes g prize quota sp.path p := by
      obtain ⟨l, hv1, hv2⟩ := collapseVia_spec hg prize quota hls hhd (g.adjacent ls) (fun c hc => mem_adjacent.1 hc)
      rw [findCollapsePaths, hhd, hls]
      simp only [Graph.adjacentVertices, if_pos hlsn, Res.ok_bind, hv1]
      cases useShortest with
      | false => exact Or.inr ⟨l, rfl, hv2⟩
      | true =>
        simp only [if_true]
        rcases collapseShortest_spec hg cost prize quota hnd hls hhd hlsn hpick with ⟨r1, r2⟩ | ⟨l2, r1, r2⟩
        · rw [r1]; exact Or.inl ⟨rfl, trivial, r2⟩
        · rw [r1]
          refine Or.inr ⟨l ++ l2, rfl, fun p hp => ?_⟩
          rcases List.mem_append.1 hp with hp | hp
          · exact hv2 p hp
          · exact r2 p hp
    rcases hpaths with ⟨r1, r2⟩ | ⟨l, r1, r2⟩
    · rw [r1]; exact Or.inl ⟨rfl, r2⟩
    · right
      rw [r1, totalCost_of_isWalk hg cost hw]
      simp only [Res.ok_bind]
      obtain ⟨best', bc', b1, b2, b4, b3⟩ := bestCollapseLoop_spec hg cost (walkCost g cost sp.path) 0 l (fun p hp => (r2 p hp).walk) none bc
      rw [b1]
      simp only [Res.ok_bind]
      have hcand : CollapseCands g t cost prize quota root useShortest pick i bc' := by
        intro sp' e1 e2 e3
        rw [h1] at e1; cases e1
        exact ⟨l, r1, b4⟩
      rcases b2 with ⟨rfl, rfl⟩ | ⟨j, p, rfl, hj, hbc, hlt⟩
      · exact ⟨best, bc', rfl, hinv, b3, hcand⟩
      · simp only [Nat.zero_add, hj]
        refine ⟨_, _, rfl, ?_, b3, hcand⟩
        have hcl := r2 p (List.mem_of_getElem? hj)
        have hle := hinv.1
        refine ⟨by omega, Or.inr ⟨by omega, ?_⟩⟩
        rcases hcl.tour (cost := cost) hnd hw with ⟨f, e1, e2, e3⟩ | ⟨x, e1, e2, e3, e4, e5⟩
        · right
          rw [e1] at hroot
          simp at hroot; subst hroot
          rw [e1] at hlow
          simp at hlow
          refine ⟨by rw [e1, e2]; rfl, ?_, e3, hlow⟩
          rw [hbc, e1, e2]; simp
        · left
          exact ⟨⟨x, e1⟩, e4 root hroot, by rw [e2, hbc]; omega, e3, e5 hlow⟩

theorem collapseLoop_spec {g : Graph} (hg : g.WF) {a : Nat} {t : List Nat} (ht : IsTour g a t) (cost prize : Nat → Int) (quota : Int)
    (root : Nat) (useShortest : Bool) {pick : Nat → Pick} (hpick : ∀ i, (pick i).Heap) (i : Nat) (hi : i ≤ t.length) (best : List Nat) (bc : Int)
    (hinv : CollapseInv g cost prize quota root t best bc) :
    (collapseLoop g t cost prize quota root useShortest pick i (best, bc) = .throw .negativeEdge ∧ useShortest = true ∧
      ∃ e < g.edges.length, cost e < 0) ∨
    ∃ best' bc', collapseLoop g t cost prize quota root useShortest pick i (best, bc) = .ok (best', bc') ∧
      CollapseInv g cost prize quota root t best' bc' ∧ bc' ≤ bc ∧
      ∀ j < i, CollapseCands g t cost prize quota root useShortest (pick j) j bc' := by
  induction i generalizing best bc with
  | zero => exact Or.inr ⟨best, bc, rfl, hinv, Int.le_refl _, fun j hj => absurd hj (by omega)⟩
  | succ i ih =>
    rw [collapseLoop]
    rcases collapseStep_spec hg ht cost prize quota root useShortest (hpick i) (i := i) (by omega) best bc hinv with ⟨h1, h2⟩ | ⟨best', bc', h1, h2, h3, h4⟩
    · rw [h1]; exact Or.inl ⟨rfl, h2⟩
    · rw [h1]
      simp only [Res.ok_bind]
      rcases ih (by omega) best' bc' h2 with r | ⟨best2, bc2, r1, r2, r3, r4⟩
      · exact Or.inl r
      · refine Or.inr ⟨best2, bc2, r1, r2, by omega, ?_⟩
        intro j hj
        by_cases hji : j < i
        · exact r4 j hji
        · have : j = i := by omega
          subst this
          intro sp e1 e2 e3
          obtain ⟨l, e4, e5⟩ := h4 sp e1 e2 e3
          refine ⟨l, e4, fun p hp => ?_⟩
          have := e5 p hp
          omega

theorem CollapseInv.cost_eq {g : Graph} {cost prize : Nat → Int} {quota : Int} {root : Nat} {t best : List Nat} {bc : Int}
    (h : CollapseInv g cost prize quota root t best bc) : walkCost g cost best = bc := by
  rcases h.2 with ⟨rfl, h⟩ | ⟨-, ⟨-, -, h, -⟩ | ⟨rfl, h, -⟩⟩
  · exact h.symm
  · exact h
  · rw [h]; simp

/-- The outcome of `collapse`. -/
theorem collapse_spec {g : Graph} (hg : g.WF) {a : Nat} {t : List Nat} (ht : IsTour g a t) {root : Nat} (hroot : root ∈ t)
    (cost prize : Nat → Int) (quota : Int) (useShortest : Bool) {pick : Nat → Pick} (hpick : ∀ i, (pick i).Heap) :
    (collapse g t cost prize quota root useShortest pick = .throw .negativeEdge ∧ useShortest = true ∧
      ∃ e < g.edges.length, cost e < 0) ∨
    ∃ t', collapse g t cost prize quota root useShortest pick = .ok t' ∧
      (IsTour g root t' ∧ (t' = reorderTourFromRoot t root ∨ walkCost g cost t' < walkCost g cost t ∧ quota ≤ tourPrize prize t' ∧ 4 ≤ t'.length) ∨
        t' = [root] ∧ quota ≤ 0 ∧ prize root < quota ∧ 0 < walkCost g cost t) ∧
      walkCost g cost t' ≤ walkCost g cost t ∧
      ∀ j < t.length, CollapseCands g t cost prize quota root useShortest (pick j) j (walkCost g cost t') := by
  have key : ∀ {x : Nat} {s : List Nat}, IsTour g x s → root ∈ s → IsTour g root (reorderTourFromRoot s root) ∧
      walkCost g cost (reorderTourFromRoot s root) = walkCost g cost s ∧
      tourPrize prize (reorderTourFromRoot s root) = tourPrize prize s := by
    intro x s hs hr
    have h1 := C01_reorder_isTour g s x root hs hr
    have hcl : s.head? = s.getLast? := by
      obtain ⟨m, hm⟩ := hs.shape
      rw [hm, ← List.cons_append, List.getLast?_concat]; rfl
    obtain ⟨h2, h3⟩ := C01_reorder_cost_prize g hg cost prize s root _ hcl hr (totalCost_of_isWalk hg cost hs.walk)
    rw [totalCost_of_isWalk hg cost h1.walk] at h2
    rw [totalPrizeOfTour_eq prize hs.ne_nil, totalPrizeOfTour_eq prize h1.ne_nil] at h3
    simp only [Res.ok.injEq] at h2 h3
    exact ⟨h1, h2, h3⟩
  rw [collapse, totalCost_of_isWalk hg cost ht.walk]
  simp only [Res.ok_bind]
  rcases collapseLoop_spec hg ht cost prize quota root useShortest hpick t.length (Nat.le_refl _) t (walkCost g cost t)
    ⟨Int.le_refl _, Or.inl ⟨rfl, rfl⟩⟩ with ⟨h1, h2⟩ | ⟨best, bc, h1, h2, h3, h4⟩
  · rw [h1]; exact Or.inl ⟨rfl, h2⟩
  · right
    rw [h1]
    simp only [Res.ok_bind]
    refine ⟨_, rfl, ?_⟩
    rcases h2.2 with ⟨rfl, e⟩ | ⟨e, ⟨⟨x, e1⟩, e2, e3, e4, e5⟩ | ⟨rfl, e2, e3, e4⟩⟩
    · obtain ⟨k1, k2, k3⟩ := key ht hroot
      rw [k2, ← e]
      exact ⟨Or.inl ⟨k1, Or.inl rfl⟩, Int.le_refl _, h4⟩
    · obtain ⟨k1, k2, k3⟩ := key e1 e2
      rw [k2, k3, e3]
      exact ⟨Or.inl ⟨k1, Or.inr ⟨e, e4, by rw [reorder_length]; exact e5⟩⟩, by omega, h4⟩
    · have hr : reorderTourFromRoot [root] root = [root] := reorder_head root []
      rw [hr]
      simp only [walkCost_singleton]
      rw [e2] at h4 e
      exact ⟨Or.inr ⟨trivial, e3, e4, e⟩, by omega, h4⟩

/-- The sub path of a round is the one that stops just below the quota. -/
theorem subPathLoop_complete (t : List Nat) (prize : Nat → Int) (hp : ∀ v, 0 ≤ prize v) (quota : Int) (root : Nat)
    (m pos : Nat) (sp : SubPath) (Q : List Nat) (w : Nat) (rest : List Nat) (hpos : pos ≤ t.length) (hne : 2 ≤ t.length)
    (hrd : t.drop pos ++ t.tail = Q ++ w :: rest) (hwrap : Q.length < t.length - 1) (hQ : Q.length < m)
    (h1 : sp.prizeOfPath + prizeSum prize Q < quota) (h2 : quota ≤ sp.prizeOfPath + prizeSum prize Q + prize w) :
    ∃ sp', subPathLoop t prize quota root m pos sp = .ok sp' ∧ sp'.path = sp.path ++ Q ∧ sp'.feasibleFound = true := by
  induction Q generalizing m pos sp rest with
  | nil =>
    cases m with
    | zero => simp at hQ
    | succ m =>
      simp at h1 h2
      rw [subPathLoop, if_pos h1]
      simp only
      have hw : t[if pos = t.length then 1 else pos]? = some w := by
        by_cases h : pos = t.length
        · subst h
          rw [if_pos rfl]
          have : t.tail[0]? = some w := by
            rw [List.drop_length, List.nil_append, List.nil_append] at hrd; rw [hrd]; rfl
          rw [← this, List.getElem?_tail]
        · rw [if_neg h]
          have := congrArg (fun l => l[0]?) hrd
          simp only [List.nil_append, List.getElem?_cons_zero] at this
          rw [List.getElem?_append_left (by simp; omega), List.getElem?_drop] at this
          simpa using this
      rw [hw]
      simp only
      rw [if_pos h2]
      exact ⟨_, rfl, by simp, rfl⟩
  | cons q Q ih =>
    cases m with
    | zero => simp at hQ
    | succ m =>
      have hnn : 0 ≤ prizeSum prize Q := prizeSum_nonneg hp Q
      simp only [prizeSum_cons] at h1 h2
      have hq := hp q
      rw [subPathLoop, if_pos (by omega)]
      simp only
      simp only [List.length_cons] at hwrap hQ
      by_cases h : pos = t.length
      · subst h
        rw [if_pos rfl]
        rw [List.drop_length, List.nil_append] at hrd
        have h0 : t[1]? = some q := by
          rw [show t[1]? = t.tail[0]? from (List.getElem?_tail).symm, hrd]; rfl
        rw [h0]
        simp only
        rw [if_neg (by omega)]
        have hlt : Q.length + 2 ≤ t.tail.length + 1 := by simp; omega
        have hd : t.drop 2 = Q ++ w :: rest := by
          have : t.drop 2 = t.tail.drop 1 := by rw [List.drop_tail]
          rw [this, hrd]; rfl
        obtain ⟨sp', r1, r2, r3⟩ := ih m 2 (rest := rest ++ t.tail) (sp := { sp with path := sp.path ++ [q], prizeOfPath := sp.prizeOfPath + prize q, rootSeen := (sp.rootSeen || decide (q = root)) })
          (by omega) (by rw [hd]; simp) (by omega) (by omega) (by simp only; omega) (by simp only; omega)
        exact ⟨sp', r1, by rw [r2]; simp, r3⟩
      · rw [if_neg h]
        have hlt : pos < t.length := by omega
        rw [List.drop_eq_getElem_cons hlt, List.cons_append, List.cons_append] at hrd
        injection hrd with e1 e2
        rw [List.getElem?_eq_getElem hlt, e1]
        simp only
        rw [if_neg (by omega)]
        obtain ⟨sp', r1, r2, r3⟩ := ih m (pos + 1) (rest := rest) (sp := { sp with path := sp.path ++ [q], prizeOfPath := sp.prizeOfPath + prize q, rootSeen := (sp.rootSeen || decide (q = root)) })
          (by omega) e2 (by omega) (by omega) (by simp only; omega) (by simp only; omega)
        exact ⟨sp', r1, by rw [r2]; simp, r3⟩

/-- A run of consecutive vertices of the closed tour `t`, read cyclically, followed by `w`; at least one vertex of the tour besides
`w` is not on the run. -/
def CyclicRun (t P : List Nat) (w : Nat) : Prop :=
  P ≠ [] ∧ P.length + 2 ≤ t.length ∧ ∃ i, i < t.length ∧ (P ++ [w]) <+: (t.drop i ++ t.tail)

theorem getSubPathOverTour_complete {g : Graph} {a : Nat} {t : List Nat} (ht : IsTour g a t) {prize : Nat → Int} (hp : ∀ v, 0 ≤ prize v)
    {quota : Int} {root : Nat} {P : List Nat} {w : Nat} (hr : CyclicRun t P w) (hroot : root ∈ P) (h1 : prizeSum prize P < quota)
    (h2 : quota ≤ prizeSum prize P + prize w) :
    ∃ i < t.length, ∃ sp, getSubPathOverTour t i prize quota root = .ok sp ∧ sp.path = P ∧ sp.rootSeen = true ∧ sp.feasibleFound = true := by
  obtain ⟨hne, hlen, i, hi, rest, hrest⟩ := hr
  refine ⟨i, hi, ?_⟩
  cases P with
  | nil => exact absurd rfl hne
  | cons q Q =>
    rw [List.drop_eq_getElem_cons hi] at hrest
    simp only [List.cons_append, List.cons.injEq] at hrest
    obtain ⟨rfl, hrest⟩ := hrest
    simp only [List.length_cons] at hlen
    obtain ⟨sp, r1, r2, r3⟩ := subPathLoop_complete t prize hp quota root (t.length - 2) (i + 1)
      { path := [t[i]], prizeOfPath := prize t[i], rootSeen := decide (t[i] = root), feasibleFound := false } Q w rest (by omega) (by omega)
      (by rw [← hrest]; simp) (by omega) (by omega) (by simpa using h1) (by simpa using h2)
    have e : getSubPathOverTour t i prize quota root = .ok sp := by
      rw [getSubPathOverTour, List.getElem?_eq_getElem hi]; exact r1
    refine ⟨sp, e, by rw [r2]; rfl, ?_, r3⟩
    obtain ⟨sp', e', -, hs, -⟩ := getSubPathOverTour_spec ht prize quota root hi
    rw [e] at e'; cases e'
    rw [hs, r2]
    simpa using hroot

theorem collapseVia_complete {g : Graph} {prize : Nat → Int} {quota : Int} {P : List Nat} {s t : Nat} (cs : List Nat) (l : List (List Nat))
    (h : collapseVia g prize quota P s t cs = .ok l) {c : Nat} (hc : c ∈ cs) (h1 : Adj g c t) (h2 : c ∉ P)
    (h3 : quota ≤ prizeSum prize P + prize c) (h4 : s ≠ t) (hlt : c < g.n) : [s, c, t] ∈ l := by
  induction cs generalizing l with
  | nil => simp at hc
  | cons x cs ih =>
    rw [collapseVia] at h
    cases he : g.edge x t with
    | throw e => rw [he] at h; cases h
    | ub e => rw [he] at h; cases h
    | ok e =>
      rw [he] at h
      simp only [Res.ok_bind] at h
      cases hl : collapseVia g prize quota P s t cs with
      | throw e => rw [hl] at h; cases h
      | ub e => rw [hl] at h; cases h
      | ok l' =>
        rw [hl] at h
        simp only [Res.ok_bind] at h
        rcases List.mem_cons.1 hc with rfl | hc
        · have : e.isSome = true := by
            rw [Graph.edge, if_pos hlt] at he
            cases he
            exact edgeIdx_isSome_iff.2 h1
          rw [if_pos ⟨this, h2, by rw [totalPrize_eq]; exact h3, h4⟩] at h
          cases h; simp
        · have := ih l' hl hc
          split at h
          · cases h; simp [this]
          · cases h; exact this

end Pctsp
