import Verif.Lemmas.ExtensionLoop
import Verif.Lemmas.Gain
import Verif.Spec.Insertion

/-!
# Lemmas for extension by unitary loss
-/

namespace Pctsp

variable {F : Type}

/-- What an entry for the pair `p` of consecutive vertices says. -/
def LossEntry (O : FloatOps F) (g : Graph) (cost prize : Nat → Int) (t : List Nat) (p : Nat × Nat) (e : ExtEntry F) : Prop :=
  (e.feasible = true → ∃ v, e.path = [p.1, v, p.2] ∧ Insertable g t v p.1 p.2 ∧ 0 < prize v ∧ e.loss = lossBetween O g cost prize v p.1 p.2 ∧
    ∀ v', Insertable g t v' p.1 p.2 → 0 < prize v' → O.lt (lossBetween O g cost prize v' p.1 p.2) e.loss = false) ∧
  (e.feasible = false → ∀ v, Insertable g t v p.1 p.2 → prize v ≤ 0)

theorem consec_getElem? {α : Type} {l : List α} {i : Nat} {a b : α} (h : (consec l)[i]? = some (a, b)) : l[i]? = some a ∧ l[i + 1]? = some b := by
  rw [consec, List.getElem?_zip_eq_some] at h
  rw [← List.getElem?_tail]
  exact h

/-- The segment of one edge. -/
theorem segment_one {g : Graph} {r : Nat} {t : List Nat} (ht : IsTour g r t) {i a b : Nat} (hk : 1 < t.length - 1)
    (h : (consec t)[i]? = some (a, b)) : t[(i + 1) % (t.length - 1)]? = some b ∧ getSubpathOfCycle t i ((i + 1) % (t.length - 1)) = .ok [a, b] := by
  obtain ⟨h1, h2⟩ := consec_getElem? h
  have hi : i + 1 < t.length := (List.getElem?_eq_some_iff.1 h2).1
  have hd : t.drop i = a :: b :: t.drop (i + 2) := by
    obtain ⟨hi1, e1⟩ := List.getElem?_eq_some_iff.1 h1
    obtain ⟨hi2, e2⟩ := List.getElem?_eq_some_iff.1 h2
    rw [List.drop_eq_getElem_cons hi1, List.drop_eq_getElem_cons hi2, e1, e2]
  by_cases he : i + 1 = t.length - 1
  · have hb : b = r := by
      have := (isTour_iff'.1 ht).2.1
      rw [List.getLast?_eq_getElem?, ← he, h2] at this
      simpa using this
    rw [he, Nat.mod_self]
    constructor
    · obtain ⟨m, hm⟩ := ht.shape
      rw [hm, hb]; rfl
    · rw [getSubpath_outer t i 0 (by omega) (by omega), hd, List.drop_eq_nil_of_le (by omega)]
      rfl
  · rw [Nat.mod_eq_of_lt (by omega)]
    refine ⟨h2, ?_⟩
    rw [getSubpath_inner t i (i + 1) (by omega) (by omega), hd, show i + 1 + 1 - i = 2 by omega]
    rfl

theorem extensionEntry_loss {O : FloatOps F} (hO : O.Lawful) {g : Graph} (hg : g.WF) {r : Nat} {t : List Nat} (ht : IsTour g r t)
    (cost prize : Nat → Int) {i a b : Nat} (hk : 1 < t.length - 1) (h : (consec t)[i]? = some (a, b)) :
    ∃ e, extensionEntry O g t cost prize r 1 2 i = .ok e ∧ LossEntry O g cost prize t (a, b) e := by
  obtain ⟨h1, h2⟩ := consec_getElem? h
  obtain ⟨h3, h4⟩ := segment_one ht hk h
  have hlt : ∀ v ∈ t, v < g.n := ht.walk.lt hg (by omega)
  have hab : Adj g a b := ht.walk _ (List.mem_of_getElem? h)
  have ha := hlt a (List.mem_of_getElem? h1)
  have hb := hlt b (List.mem_of_getElem? h2)
  obtain ⟨nbrs, n1, -, -, n2⟩ := neighborIntersection_spec ha hb
  have hcand : externalCandidates g prize t r 2 a b [a, b] = .ok ((nbrs.filter fun u => u ∉ t).map fun u => [a, u, b]) := by
    rw [externalCandidates, show [a, b] = a :: ([] ++ [b]) from rfl, isInternal_of_two]
    simp only [Res.ok_bind, List.not_mem_nil, decide_false, Bool.false_eq_true, and_false, if_false, if_true, n1]
    rfl
  have hins : ∀ v, v ∈ nbrs.filter (fun u => u ∉ t) ↔ Insertable g t v a b := by
    intro v
    simp only [List.mem_filter, n2, decide_eq_true_eq]
    constructor
    · rintro ⟨⟨x, y⟩, z⟩
      exact ⟨List.mem_of_getElem? h, z, x.lt_right hg, x, y.symm⟩
    · rintro ⟨-, z, -, x, y⟩
      exact ⟨⟨x, y.symm⟩, z⟩
  generalize nbrs.filter (fun u => u ∉ t) = vs at hcand hins
  have hwalk : ∀ p ∈ vs.map fun u => [a, u, b], IsWalk g p := by
    intro p hp
    obtain ⟨v, hv, rfl⟩ := List.mem_map.1 hp
    have := (hins v).1 hv
    intro q hq
    simp [consec] at hq
    rcases hq with rfl | rfl
    · exact this.left
    · exact this.right
  have hint : IsWalk g [a, b] := by intro q hq; simp [consec] at hq; subst hq; exact hab
  rw [extensionEntry_eq O h1 h3 h4 hcand, chooseExtensionPath, chooseLoop_eq O hg cost prize hint 0 _ hwalk]
  have hmap : (vs.map fun u => [a, u, b]).map (fun p =>
      (unitaryLoss O (prizeSum prize p) (prizeSum prize [a, b]) (walkCost g cost p) (walkCost g cost [a, b]),
        O.lt O.zero (O.ofInt (prizeSum prize p - prizeSum prize [a, b])))) =
      vs.map fun v => (lossBetween O g cost prize v a b, decide (0 < prize v)) := by
    rw [List.map_map]
    refine List.map_congr_left fun v _ => ?_
    have e1 : prizeSum prize [a, v, b] - prizeSum prize [a, b] = prize v := by simp [prizeSum]; omega
    have e2 : walkCost g cost [a, v, b] - walkCost g cost [a, b] = pairCost g cost a v + pairCost g cost v b - pairCost g cost a b := by
      simp [walkCost, consec]
    simp only [Function.comp, unitaryLoss, e1, e2, lossBetween, Prod.mk.injEq, true_and]
    cases hlt : O.lt O.zero (O.ofInt (prize v)) with
    | true => simp [(hO.sign _).1 hlt]
    | false =>
      have : ¬ 0 < prize v := fun h => by rw [(hO.sign _).2 h] at hlt; simp at hlt
      simp [this]
  rw [hmap]
  simp only [Res.ok_bind]
  by_cases hex : ∃ v ∈ vs, 0 < prize v
  · obtain ⟨v0, hv0, hp0⟩ := hex
    obtain ⟨k, x, k1, k2, k3, -⟩ := smallestLossLoop_first hO 0 (vs.map fun v => (lossBetween O g cost prize v a b, decide (0 < prize v)))
      { found := false, value := O.zero, index := -1 } rfl (fun x hx hx' => by
        obtain ⟨v, -, rfl⟩ := List.mem_map.1 hx
        exact hO.loss _ _ (of_decide_eq_true hx')) ⟨_, List.mem_map.2 ⟨v0, hv0, rfl⟩, by simpa using hp0⟩
    rw [k2]
    rw [List.getElem?_map, Option.map_eq_some_iff] at k1
    obtain ⟨v, hv, hx⟩ := k1
    simp only [Prod.mk.injEq, decide_eq_true_eq] at hx
    obtain ⟨rfl, hpos⟩ := hx
    refine ⟨{ loss := _, feasible := true, path := [a, v, b] }, by simp [hv]; rfl, fun _ => ⟨v, rfl, (hins v).1 (List.mem_of_getElem? hv), hpos, rfl, ?_⟩, by simp⟩
    intro v' hv' hp'
    obtain ⟨j, hj⟩ := List.mem_iff_getElem?.1 ((hins v').2 hv')
    exact k3 j _ (by simp [hj, hp'])
  · obtain ⟨h5, h6⟩ : (smallestLossLoop O 0 (vs.map fun v => (lossBetween O g cost prize v a b, decide (0 < prize v)))
        { found := false, value := O.zero, index := -1 }).index = -1 ∧ True := by
      rcases smallestLossLoop_cases O 0 (vs.map fun v => (lossBetween O g cost prize v a b, decide (0 < prize v)))
        { found := false, value := O.zero, index := -1 } with ⟨h5, -⟩ | ⟨k, x, h5, -⟩
      · rw [h5]; exact ⟨rfl, trivial⟩
      · rw [List.getElem?_map, Option.map_eq_some_iff] at h5
        obtain ⟨v, hv, hx⟩ := h5
        simp only [Prod.mk.injEq, decide_eq_true_eq] at hx
        exact absurd ⟨v, List.mem_of_getElem? hv, hx.2⟩ hex
    simp only [Res.pure_eq, Res.ok_bind, h5]
    refine ⟨_, rfl, by simp, fun _ v hv => ?_⟩
    by_contra hc
    exact hex ⟨v, (hins v).2 hv, by omega⟩

/-- The value of an entry. -/
def ExtEntry.value (e : ExtEntry F) : Option F := if e.feasible then some e.loss else none

theorem numFeasible_count (es : List (ExtEntry F)) : numFeasibleExtensions (es.map (·.feasible)) = (es.map ExtEntry.value).reduceOption.length := by
  have h : ∀ (es : List (ExtEntry F)) (n : Nat), (es.map (·.feasible)).foldl (fun n b => n + b.toNat) n = n + (es.map ExtEntry.value).reduceOption.length := by
    intro es
    induction es with
    | nil => intro n; rfl
    | cons e es ih =>
      intro n
      rw [List.map_cons, List.foldl_cons, ih, List.map_cons, ExtEntry.value]
      cases e.feasible <;> simp [List.reduceOption_cons_of_none, List.reduceOption_cons_of_some]
      omega
  rw [numFeasibleExtensions, h]; simp

theorem averageUnitaryLoss_mean (O : FloatOps F) (es : List (ExtEntry F)) :
    averageUnitaryLoss O (es.map fun e => (e.loss, e.feasible)) = meanOf O (es.map ExtEntry.value) := by
  have h : ∀ (es : List (ExtEntry F)) (x : F), (es.map fun e => (e.loss, e.feasible)).foldl (fun t x => if x.2 then O.add t x.1 else t) x =
      (es.map ExtEntry.value).reduceOption.foldl O.add x := by
    intro es
    induction es with
    | nil => intro n; rfl
    | cons e es ih =>
      intro n
      rw [List.map_cons, List.foldl_cons, ih, List.map_cons, ExtEntry.value]
      cases e.feasible <;> simp [List.reduceOption_cons_of_none, List.reduceOption_cons_of_some]
  rw [averageUnitaryLoss, meanOf, h, ← numFeasible_count, List.map_map]
  rfl

/-- One round. -/
theorem lossRound {O : FloatOps F} (hO : O.Lawful) {g : Graph} (hg : g.WF) {r : Nat} {t : List Nat} (ht : IsTour g r t)
    (cost prize : Nat → Int) (hlen : 3 ≤ t.length) :
    ∃ es, findExtensionPaths O g t cost prize r 1 2 = .ok es ∧
      List.Forall₂ (LeastLossAt O g cost prize t) (consec t) (es.map ExtEntry.value) ∧
      (numFeasibleExtensions (es.map (·.feasible)) > 0 → ∃ (k : Nat) (e : ExtEntry F) (v a b : Nat) (t1 : List Nat),
        indexOfSmallestLoss O (es.map fun e => (e.loss, e.feasible)) = k ∧ es[k]? = some e ∧ LeastLoss O g cost prize t v a b ∧
        e.loss = lossBetween O g cost prize v a b ∧ swapPathsInTour t e.path k (k + 1) = .ok t1 ∧ InsertsBetween g v a b t t1) ∧
      (¬ numFeasibleExtensions (es.map (·.feasible)) > 0 → ∀ v a b, Insertable g t v a b → prize v ≤ 0) := by
  have hcl : (consec t).length = t.length - 1 := by simp [consec]
  have key : ∀ i (hi : i < t.length - 1), ∃ e, extensionEntry O g t cost prize r 1 2 i = .ok e ∧
      LossEntry O g cost prize t ((consec t)[i]'(by omega)) e := fun i hi =>
    extensionEntry_loss hO hg ht cost prize (by omega) (List.getElem?_eq_getElem (by omega))
  obtain ⟨es, h1, h2, h3⟩ := mapRes_spec (extensionEntry O g t cost prize r 1 2) (List.range (t.length - 1)) (fun i hi => by
    obtain ⟨e, he, -⟩ := key i (by simpa using hi)
    exact ⟨e, he⟩)
  rw [List.length_range] at h2
  have h4 : ∀ (i : Nat) e, es[i]? = some e → ∃ p, (consec t)[i]? = some p ∧ LossEntry O g cost prize t p e := by
    intro i e he
    have hi : i < t.length - 1 := by rw [← h2]; exact (List.getElem?_eq_some_iff.1 he).1
    obtain ⟨e', k1, k2⟩ := key i hi
    have := h3 i i e (by simp [hi]) he
    rw [k1] at this
    cases this
    exact ⟨_, List.getElem?_eq_getElem (by omega), k2⟩
  have h5 : List.Forall₂ (LossEntry O g cost prize t) (consec t) es := by
    rw [List.forall₂_iff_get]
    refine ⟨by omega, fun i hi hi' => ?_⟩
    obtain ⟨p, p1, p2⟩ := h4 i es[i] (List.getElem?_eq_getElem hi')
    rw [List.getElem?_eq_getElem hi] at p1
    injection p1 with p1
    subst p1
    exact p2
  have hpair : ∀ a b, (a, b) ∈ consec t → ∃ (i : Nat) (e : ExtEntry F), es[i]? = some e ∧ (consec t)[i]? = some (a, b) ∧ LossEntry O g cost prize t (a, b) e := by
    intro a b hab
    obtain ⟨i, hi⟩ := List.mem_iff_getElem?.1 hab
    have hi' : i < es.length := by rw [h2, ← hcl]; exact (List.getElem?_eq_some_iff.1 hi).1
    obtain ⟨p, p1, p2⟩ := h4 i es[i] (List.getElem?_eq_getElem hi')
    rw [hi] at p1
    cases p1
    exact ⟨i, es[i], List.getElem?_eq_getElem hi', hi, p2⟩
  refine ⟨es, h1, ?_, fun hn => ?_, fun hn v a b hv => ?_⟩
  · rw [List.forall₂_map_right_iff]
    refine h5.imp fun p e he => ?_
    rw [ExtEntry.value]
    cases hf : e.feasible with
    | true =>
      obtain ⟨v, -, q1, q2, q3, q4⟩ := he.1 hf
      exact ⟨v, q1, q2, q3, q4⟩
    | false => exact he.2 hf
  · rw [numFeasible_pos_iff] at hn
    obtain ⟨e0, he0, hf0⟩ := List.mem_map.1 hn
    obtain ⟨k, x, k1, k2, k3, -⟩ := smallestLossLoop_first hO 0 (es.map fun e => (e.loss, e.feasible))
      { found := false, value := O.zero, index := -1 } rfl (fun x hx hx' => by
        obtain ⟨e, he, rfl⟩ := List.mem_map.1 hx
        obtain ⟨i, hi⟩ := List.mem_iff_getElem?.1 he
        obtain ⟨p, -, hp⟩ := h4 i e hi
        obtain ⟨v, -, -, q2, q3, -⟩ := hp.1 hx'
        rw [q3]
        exact hO.loss _ _ q2) ⟨_, List.mem_map.2 ⟨e0, he0, rfl⟩, hf0⟩
    rw [List.getElem?_map, Option.map_eq_some_iff] at k1
    obtain ⟨e, he, hx⟩ := k1
    simp only [Prod.mk.injEq] at hx
    obtain ⟨rfl, hf⟩ := hx
    obtain ⟨⟨a, b⟩, hp, hq⟩ := h4 k e he
    obtain ⟨v, q0, q1, q2, q3, q4⟩ := hq.1 hf
    simp only at q0 q1 q3 q4
    obtain ⟨c1, c2⟩ := consec_getElem? hp
    have hsplit : t = t.take k ++ a :: ([] ++ b :: t.drop (k + 2)) := by
      obtain ⟨hi1, e1⟩ := List.getElem?_eq_some_iff.1 c1
      obtain ⟨hi2, e2⟩ := List.getElem?_eq_some_iff.1 c2
      conv_lhs => rw [← List.take_append_drop k t, List.drop_eq_getElem_cons hi1, List.drop_eq_getElem_cons hi2, e1, e2]
      rfl
    have hkl : k + 1 < t.length := (List.getElem?_eq_some_iff.1 c2).1
    have hsw : swapPathsInTour t e.path k (k + 1) = .ok (t.take k ++ e.path ++ t.drop (k + 2)) := by
      conv_lhs => rw [hsplit]
      exact swap_inner (by simp; omega) rfl
    refine ⟨k, e, v, a, b, _, by rw [indexOfSmallestLoss, k2]; simp, he, ⟨q1, q2, fun v' a' b' hv' hp' => ?_⟩, q3, hsw,
      ⟨⟨t.take k, t.drop (k + 2), hsplit, by rw [q0]; simp⟩, q1.new, q1.vertex, q1.left, q1.right⟩⟩
    obtain ⟨i, e', f1, f2, f3⟩ := hpair a' b' hv'.pair
    cases hf' : e'.feasible with
    | false => have := f3.2 hf' v' hv'; omega
    | true =>
      obtain ⟨w, -, w1, w2, w3, w4⟩ := f3.1 hf'
      have h6 := w4 v' hv' hp'
      have h7 := k3 i e'.loss (by simp [f1, hf'])
      rw [← q3]
      exact hO.negTrans _ _ _ (by rw [w3]; exact hO.loss _ _ w2) h6 h7
  · obtain ⟨i, e, f1, -, f3⟩ := hpair a b hv.pair
    exact f3.2 (numFeasible_zero hn e (List.mem_of_getElem? f1)) v hv

/-- The loop after the first round. -/
theorem lossLoop {O : FloatOps F} (hO : O.Lawful) {g : Graph} (hg : g.WF) {r : Nat} (cost prize : Nat → Int) (avg : F) (rem : Nat) :
    ∀ t, IsTour g r t → 3 ≤ t.length → g.n + 1 ≤ rem + t.length →
      ∃ t', pathExtensionLoop O g cost prize r 1 2 rem false (some avg) t = .ok t' ∧
        GainSteps g (fun s v a b => LeastLoss O g cost prize s v a b ∧ O.lt (lossBetween O g cost prize v a b) avg = true) t t' ∧
        ∀ v a b, Insertable g t' v a b → 0 < prize v → O.lt (lossBetween O g cost prize v a b) avg = false := by
  induction rem with
  | zero =>
    intro t ht hlen hn
    refine ⟨t, rfl, .refl t, fun v a b hv => ?_⟩
    exfalso
    have hnd : (v :: t.dropLast).Nodup := List.nodup_cons.2 ⟨fun h => hv.new (List.mem_of_mem_dropLast h), ht.nodup⟩
    have hsub : v :: t.dropLast ⊆ List.range g.n := by
      intro x hx
      rw [List.mem_range]
      rcases List.mem_cons.1 hx with rfl | hx
      · exact hv.vertex
      · exact ht.walk.lt hg (by omega) x (List.mem_of_mem_dropLast hx)
    have := (hnd.subperm hsub).length_le
    simp at this
    omega
  | succ rem ih =>
    intro t ht hlen hn
    have hfit : stepFits 1 t = true := by rw [stepFits_iff ht.ne_nil]; omega
    obtain ⟨es, h1, -, h2, h3⟩ := lossRound hO hg ht cost prize hlen
    rw [pathExtensionLoop, if_neg ht.ne_nil, hfit, if_neg (by simp), show (1 : Int).toNat = 1 from rfl, h1]
    simp only [Res.ok_bind]
    by_cases hnum : numFeasibleExtensions (es.map (·.feasible)) > 0
    · obtain ⟨k, e, v, a, b, t1, k1, k2, k3, k4, k5, k6⟩ := h2 hnum
      have hk0 : ¬ ((k : Int) < 0) := by omega
      simp only [hnum, if_true, k1, hk0, if_false, Int.toNat_natCast, k2]
      cases hlt : O.lt e.loss avg with
      | true =>
        rw [if_pos (by simp), k5]
        simp only [Res.ok_bind]
        have ht1 := GainStep.isTour ⟨a, b, k6⟩ ht
        have hl1 : t1.length = t.length + 1 := by obtain ⟨A, B, rfl, rfl⟩ := k6.split; simp; omega
        obtain ⟨t', r1, r2, r3⟩ := ih t1 ht1 (by omega) (by omega)
        exact ⟨t', r1, .step ⟨k3, by rw [← k4]; exact hlt⟩ k6 r2, r3⟩
      | false =>
        rw [if_neg (by simp)]
        exact ⟨t, rfl, .refl t, fun v' a' b' hv' hp' => hO.negTrans _ (lossBetween O g cost prize v a b) _ (hO.loss _ _ k3.positive) (k3.least v' a' b' hv' hp') (by rw [← k4]; exact hlt)⟩
    · simp only [hnum, if_false]
      exact ⟨t, rfl, .refl t, fun v a b hv hp => by have := h3 hnum v a b hv; omega⟩

end Pctsp
