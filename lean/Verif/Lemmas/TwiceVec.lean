import Verif.Lemmas.Twice

/-! Helper lemmas: the solutions of the model of a graph in which edges are listed several times. -/

namespace Pctsp

variable {g : Graph}

/-- The activity of the prize row is minus the prize of the chosen vertices. -/
theorem OneLoop.prizeRow_activity (hg : OneLoop g) (prize : Nat → Int) (quota : Int) (x : Nat → Int) :
    (prizeRow g (putPrizeOntoEdgeWeights g prize) quota).activity x = - ((List.range g.n).map fun v => prize v * loopVal g x v).sum := by
  have h1 : ∀ e ∈ List.range g.edges.length, -(putPrizeOntoEdgeWeights g prize e) * x e =
      ((List.range g.n).map fun v => if (g.edgeIdx v v).getD g.edges.length = e then - (prize v * loopVal g x v) else 0).sum := by
    intro e he
    have hlt := List.mem_range.1 he
    have hp : g.edges[e]? = some g.edges[e] := List.getElem?_eq_getElem hlt
    rcases hpe : g.edges[e] with ⟨a, b⟩
    rw [hpe] at hp
    rw [putPrize_eq g prize hp]
    by_cases hab : a = b
    · subst hab
      have hidx := hg.loopIdx hp
      rw [if_pos ⟨rfl, hidx⟩]
      have hlta : a < g.n := (hg.wf _ (List.mem_of_getElem? hp)).1
      have : ((List.range g.n).map fun v => if (g.edgeIdx v v).getD g.edges.length = e then - (prize v * loopVal g x v) else 0) =
          (List.range g.n).map fun v => if a = v then - (prize a * x e) else 0 := by
        refine List.map_congr_left fun v hv => ?_
        obtain ⟨i, hi⟩ := Option.isSome_iff_exists.1 (edgeIdx_isSome_iff.2 (Or.inl (hg.loops_mem v (List.mem_range.1 hv)) : Adj g v v))
        by_cases hav : a = v
        · subst hav
          simp [hidx, loopVal]
        · rw [if_neg hav, if_neg]
          rw [hi, Option.getD_some]
          rintro rfl
          rcases edgeIdx_eq_some hi with h | h <;> rw [hp] at h <;> simp at h <;> omega
      rw [this, sum_ite_eq List.nodup_range, if_pos (List.mem_range.2 hlta)]
      simp
    · rw [if_neg (fun h => hab h.1)]
      have : ((List.range g.n).map fun v => if (g.edgeIdx v v).getD g.edges.length = e then - (prize v * loopVal g x v) else 0) =
          (List.range g.n).map fun v => (0 : Int) * 0 := by
        refine List.map_congr_left fun v hv => ?_
        obtain ⟨i, hi⟩ := Option.isSome_iff_exists.1 (edgeIdx_isSome_iff.2 (Or.inl (hg.loops_mem v (List.mem_range.1 hv)) : Adj g v v))
        rw [if_neg]
        · rfl
        · rw [hi, Option.getD_some]
          rintro rfl
          rcases edgeIdx_eq_some hi with h | h <;> rw [hp] at h <;> simp at h <;> omega
      rw [this, sum_map_mul]
      simp
  have h2 : (prizeRow g (putPrizeOntoEdgeWeights g prize) quota).activity x =
      ((List.range g.edges.length).map fun e => ((List.range g.n).map fun v =>
        if (g.edgeIdx v v).getD g.edges.length = e then - (prize v * loopVal g x v) else 0).sum).sum := by
    rw [Row.activity, prizeRow, List.map_map]
    congr 1
    exact List.map_congr_left h1
  rw [h2, sum_swap]
  have h3 : ((List.range g.n).map fun v => ((List.range g.edges.length).map fun e =>
      if (g.edgeIdx v v).getD g.edges.length = e then - (prize v * loopVal g x v) else 0).sum) =
      (List.range g.n).map fun v => (-1) * (prize v * loopVal g x v) := by
    refine List.map_congr_left fun v hv => ?_
    obtain ⟨i, hi⟩ := Option.isSome_iff_exists.1 (edgeIdx_isSome_iff.2 (Or.inl (hg.loops_mem v (List.mem_range.1 hv)) : Adj g v v))
    rw [sum_ite_eq List.nodup_range, if_pos]
    · omega
    · rw [hi, Option.getD_some, List.mem_range]
      rcases edgeIdx_eq_some hi with h | h <;> exact (List.getElem?_eq_some_iff.1 h).1
  rw [h3, sum_map_mul]
  omega

/-- All rows of the model. -/
theorem OneLoop.rows (hg : OneLoop g) (prize : Nat → Int) (quota : Int) {root : Nat} (hroot : root < g.n) :
    ∃ rows, modelWithoutSECs g prize quota root = .ok rows ∧
      (∀ x, (∀ row ∈ rows, row.Sat x) ↔ quota ≤ ((List.range g.n).map fun v => prize v * loopVal g x v).sum ∧ loopVal g x root = 1 ∧
        ∀ v < g.n, edgeSum g (weighted g x) (incident g v) = 2 * loopVal g x v) ∧
      ∀ q x, (∀ row ∈ rows, row.SatScaled q x) → loopVal g x root = q ∧ ∀ v < g.n, edgeSum g (weighted g x) (incident g v) = 2 * loopVal g x v := by
  obtain ⟨loop, hl⟩ := Option.isSome_iff_exists.1 (edgeIdx_isSome_iff.2 (Or.inl (hg.loops_mem root hroot) : Adj g root root))
  obtain ⟨rows, h1, h2, h3⟩ := hg.degreeRows
  have hroot1 : ∀ x, (rootRow loop).activity x = loopVal g x root := by
    intro x
    simp only [Row.activity, rootRow, List.map_cons, List.map_nil, List.sum_cons, List.sum_nil, loopVal, hl, Option.getD_some]
    omega
  refine ⟨_, by simp only [modelWithoutSECs, Graph.edge, if_pos hroot, hl, Res.ok_bind, h1, Res.pure_eq]; rfl, fun x => ?_, fun q x hx => ?_⟩
  · have h4 : (∀ row ∈ rows, row.Sat x) ↔ ∀ row ∈ rows, row.activity x = 0 := by
      refine forall_congr' fun row => forall_congr' fun hr => ?_
      rw [Row.Sat, (h2 row hr).1, (h2 row hr).2]
      simp only [Option.some.injEq, forall_eq']
      omega
    simp only [List.mem_cons, forall_eq_or_imp, h4, h3]
    refine and_congr ?_ (and_congr ?_ Iff.rfl)
    · rw [Row.Sat, hg.prizeRow_activity]
      simp only [prizeRow, reduceCtorEq, Option.some.injEq, forall_eq', false_imp_iff, implies_true, true_and]
      omega
    · rw [Row.Sat, hroot1]
      simp only [rootRow, Option.some.injEq, forall_eq']
      omega
  · constructor
    · have := hx (rootRow loop) (by simp)
      rw [Row.SatScaled, hroot1] at this
      simp only [rootRow, Option.some.injEq, forall_eq'] at this
      omega
    · refine (h3 x).1 fun row hr => ?_
      have := hx row (by simp [hr])
      rw [Row.SatScaled, (h2 row hr).1, (h2 row hr).2] at this
      simp only [Option.some.injEq, forall_eq'] at this
      omega

theorem count_endpoints (M : List (Nat × Nat)) (v : Nat) : (endpoints M).count v = degreeIn M v := by
  induction M with
  | nil => rfl
  | cons p M ih =>
    rw [endpoints] at ih ⊢
    rw [List.flatMap_cons, List.count_append, ih]
    unfold degreeIn
    rw [List.map_cons, List.sum_cons]
    congr 1
    by_cases h1 : p.1 = v <;> by_cases h2 : p.2 = v <;> simp [h1, h2]

/-- The selected edges of one kind. -/
def picked (g : Graph) (S : Nat → Bool) (y : Nat → Int) : List Nat :=
  (List.range g.edges.length).filter fun e => decide ((endsOf g e).1 ≠ (endsOf g e).2) && S e && decide (y e = 1)

theorem mem_picked {S : Nat → Bool} {y : Nat → Int} {e : Nat} :
    e ∈ picked g S y ↔ e < g.edges.length ∧ (endsOf g e).1 ≠ (endsOf g e).2 ∧ S e = true ∧ y e = 1 := by
  simp [picked, and_assoc]

theorem picked_nodup (S : Nat → Bool) (y : Nat → Int) : (picked g S y).Nodup := List.nodup_range.filter _

theorem picked_perm {S : Nat → Bool} {y : Nat → Int} {M : List (Nat × Nat)}
    (huniq : ∀ e f, e < g.edges.length → f < g.edges.length → (endsOf g e).1 ≠ (endsOf g e).2 → und (endsOf g e) = und (endsOf g f) →
      S e = true → S f = true → e = f)
    (hex : ∀ e < g.edges.length, und (endsOf g e) ∈ M.map und → ∃ s < g.edges.length, und (endsOf g s) = und (endsOf g e) ∧ S s = true)
    (hnd : (M.map und).Nodup) (hM : ∀ p ∈ M, p.1 ≠ p.2 ∧ Adj g p.1 p.2)
    (hy : ∀ e < g.edges.length, (endsOf g e).1 ≠ (endsOf g e).2 → S e = true → (y e = 1 ↔ und (endsOf g e) ∈ M.map und)) :
    (((picked g S y).map (endsOf g)).map und).Perm (M.map und) := by
  rw [List.perm_ext_iff_of_nodup _ hnd]
  · intro u
    simp only [List.mem_map, exists_exists_and_eq_and, mem_picked]
    constructor
    · rintro ⟨e, ⟨h1, h2, h3, h4⟩, rfl⟩
      exact List.mem_map.1 ((hy e h1 h2 h3).1 h4)
    · rintro ⟨p, hp, rfl⟩
      obtain ⟨hne, hadj⟩ := hM p hp
      obtain ⟨e, he⟩ : ∃ e, e < g.edges.length ∧ und (endsOf g e) = und p := by
        rcases hadj with h | h
        · obtain ⟨e, he⟩ := List.mem_iff_getElem?.1 h
          exact ⟨e, (List.getElem?_eq_some_iff.1 he).1, by rw [endsOf_eq he]⟩
        · obtain ⟨e, he⟩ := List.mem_iff_getElem?.1 h
          exact ⟨e, (List.getElem?_eq_some_iff.1 he).1, by rw [endsOf_eq he]; exact und_swap p⟩
      obtain ⟨s, h1, h2, h3⟩ := hex e he.1 (by rw [he.2]; exact List.mem_map_of_mem hp)
      have h4 := h2.trans he.2
      have h5 := und_ne h4.symm hne
      exact ⟨s, ⟨h1, h5, h3, (hy s h1 h5 h3).2 (by rw [h4]; exact List.mem_map_of_mem hp)⟩, h4⟩
  · rw [List.map_map]
    refine List.Nodup.map_on ?_ (picked_nodup S y)
    intro e he f hf h
    rw [mem_picked] at he hf
    exact huniq e f he.1 hf.1 he.2.1 h he.2.2.1 hf.2.2.1

/-- The first copies. -/
def isFirst (g : Graph) (e : Nat) : Bool := decide (firstOf g e = e)

theorem first_unique {e f : Nat} (h : und (endsOf g e) = und (endsOf g f)) (h1 : isFirst g e = true) (h2 : isFirst g f = true) : e = f := by
  have := firstOf_und h
  simp only [isFirst, decide_eq_true_eq] at h1 h2
  omega

theorem first_exists {e : Nat} (he : e < g.edges.length) : ∃ s < g.edges.length, und (endsOf g s) = und (endsOf g e) ∧ isFirst g s = true :=
  ⟨firstOf g e, (firstOf_spec he).2.1, (firstOf_spec he).2.2, by simp [isFirst, firstOf_firstOf he]⟩

theorem edgeSum_firsts {y : Nat → Int} (hy : ∀ e < g.edges.length, (endsOf g e).1 ≠ (endsOf g e).2 → y e = 0 ∨ y e = 1) (v : Nat) :
    edgeSum g (firsts g y) (incident g v) = (degreeIn ((picked g (isFirst g) y).map (endsOf g)) v : Int) := by
  refine edgeSum_incident (picked_nodup _ _) (fun e he => (mem_picked.1 he).1) (fun e he => (mem_picked.1 he).2.1) ?_ v
  intro e a b he hab
  have hlt := (List.getElem?_eq_some_iff.1 he).1
  have hne : (endsOf g e).1 ≠ (endsOf g e).2 := by rw [endsOf_eq he]; exact hab
  rw [firsts]
  by_cases hf : firstOf g e = e
  · rw [if_pos hf]
    rcases hy e hlt hne with h | h
    · rw [h, if_neg]
      intro hm
      have := (mem_picked.1 hm).2.2.2
      omega
    · rw [h, if_pos (mem_picked.2 ⟨hlt, hne, by simp [isFirst, hf], h⟩)]
  · rw [if_neg hf, if_neg]
    intro hm
    have := (mem_picked.1 hm).2.2.1
    simp only [isFirst, decide_eq_true_eq] at this
    exact hf this

theorem degreeIn_und {M N : List (Nat × Nat)} (h : (M.map und).Perm (N.map und)) (v : Nat) : degreeIn M v = degreeIn N v := by
  rw [← adjOf_length, ← adjOf_length, (adjOf_perm h v).length_eq]

theorem picked_split {order : List Nat} (ho : order.Perm (List.range g.edges.length)) {y : Nat → Int}
    (hy : ∀ e < g.edges.length, y e = 0 ∨ y e = 1) :
    (getSolutionEdges g order fun e => decide (0 < y e)).Perm (picked g (isFirst g) y ++ picked g (fun e => !isFirst g e) y) := by
  rw [List.perm_ext_iff_of_nodup (getSolutionEdges_nodup ho _)]
  · intro e
    rw [mem_getSolutionEdges ho, List.mem_append, mem_picked, mem_picked]
    constructor
    · rintro ⟨u, v, hp, huv, h⟩
      have hlt := (List.getElem?_eq_some_iff.1 hp).1
      have h1 : y e = 1 := by
        simp only [decide_eq_true_eq] at h
        rcases hy e hlt with h' | h' <;> omega
      rw [endsOf_eq hp]
      cases hf : isFirst g e
      · exact Or.inr ⟨hlt, huv, by simp, h1⟩
      · exact Or.inl ⟨hlt, huv, by simp, h1⟩
    · rintro (⟨h1, h2, -, h3⟩ | ⟨h1, h2, -, h3⟩) <;> exact ⟨_, _, endsOf_getElem h1, h2, by simp [h3]⟩
  · rw [List.nodup_append]
    refine ⟨picked_nodup _ _, picked_nodup _ _, fun a ha b hb hab => ?_⟩
    subst hab
    have h1 := (mem_picked.1 ha).2.2.1
    have h2 := (mem_picked.1 hb).2.2.1
    rw [h1] at h2
    simp at h2

theorem tour_range (hg : g.WF) {r : Nat} {t : List Nat} {M N : List (Nat × Nat)} (ht : IsTour g r t) (h : EdgesOfTour t (M ++ N)) :
    ∀ v ∈ endpoints M, v < g.n := by
  obtain ⟨qs, h1, h2⟩ := h
  intro v hv
  obtain ⟨p, hp, hv⟩ := List.mem_flatMap.1 hv
  obtain ⟨q, hq, hpq⟩ := forall₂_left_mem h2 (List.mem_append_left N hp)
  have h3 := ht.walk q (h1.mem_iff.1 hq)
  have h4 : q.1 < g.n ∧ q.2 < g.n := by
    rcases h3 with h | h
    · exact hg _ h
    · exact (hg _ h).symm
  simp only [List.mem_cons, List.not_mem_nil, or_false] at hv
  rcases hpq with rfl | rfl <;> rcases hv with rfl | rfl <;> simp [h4]

/-- The weights of the selected first copies at a vertex. -/
theorem edgeSum_weighted {y : Nat → Int} (hy : ∀ e < g.edges.length, (endsOf g e).1 ≠ (endsOf g e).2 → y e = 0 ∨ y e = 1) (v : Nat) :
    edgeSum g (weighted g y) (incident g v) =
      (((picked g (isFirst g) y).filter (incident g v)).map fun e => (timesListed g (endsOf g e) : Int)).sum := by
  have h1 : ((picked g (isFirst g) y).filter (incident g v)).Perm ((List.range g.edges.length).filter fun e =>
      incident g v e && (isFirst g e && decide (y e = 1))) := by
    rw [List.perm_ext_iff_of_nodup ((picked_nodup _ _).filter _) (List.nodup_range.filter _)]
    intro e
    simp only [List.mem_filter, mem_picked, List.mem_range, Bool.and_eq_true, decide_eq_true_eq]
    constructor
    · rintro ⟨⟨a, b, c, d⟩, e⟩; exact ⟨a, e, c, d⟩
    · rintro ⟨a, b, c, d⟩; exact ⟨⟨a, (incident_ne b).2, c, d⟩, b⟩
  rw [sum_eq_of_perm (h1.map _)]
  have h2 := edgeSum_eq g (fun e => (timesListed g (endsOf g e) : Int)) fun e => incident g v e && (isFirst g e && decide (y e = 1))
  rw [edgeSum] at h2
  rw [h2, edgeSum_eq]
  congr 1
  refine List.map_congr_left fun e he => ?_
  by_cases hi : incident g v e = true
  · obtain ⟨hlt, hne⟩ := incident_ne hi
    rw [weighted, firsts, isFirst]
    by_cases hf : firstOf g e = e
    · rcases hy e hlt hne with h | h <;> simp [hi, hf, h]
    · simp [hi, hf]
  · simp [hi]

theorem edgeSum_weighted_const {y : Nat → Int} (hy : ∀ e < g.edges.length, (endsOf g e).1 ≠ (endsOf g e).2 → y e = 0 ∨ y e = 1) {k : Nat}
    (hk : ∀ e ∈ picked g (isFirst g) y, timesListed g (endsOf g e) = k) (v : Nat) :
    edgeSum g (weighted g y) (incident g v) = k * edgeSum g (firsts g y) (incident g v) := by
  rw [edgeSum_eq, edgeSum_eq, ← sum_map_mul]
  congr 1
  refine List.map_congr_left fun e _ => ?_
  by_cases hi : incident g v e = true
  · obtain ⟨hlt, hne⟩ := incident_ne hi
    rw [if_pos hi, if_pos hi, weighted, firsts]
    by_cases hf : firstOf g e = e
    · rw [if_pos hf]
      rcases hy e hlt hne with h | h
      · simp [h]
      · rw [hk e (mem_picked.2 ⟨hlt, hne, by simp [isFirst, hf], h⟩)]
    · simp [hf]
  · simp [hi]

/-- The degree of a vertex is the number of edges at it. -/
theorem degreeIn_filter {l : List Nat} (hl : ∀ e ∈ l, e < g.edges.length ∧ (endsOf g e).1 ≠ (endsOf g e).2) (v : Nat) :
    degreeIn (l.map (endsOf g)) v = (l.filter (incident g v)).length := by
  rw [degreeIn_countP, List.countP_map, ← List.countP_eq_length_filter]
  · refine List.countP_congr fun e he => ?_
    obtain ⟨h1, h2⟩ := hl e he
    simp [incident, endsOf_getElem h1, h2]
  · intro p hp
    obtain ⟨e, he, rfl⟩ := List.mem_map.1 hp
    exact (hl e he).2

theorem sum_ge_length {l : List Nat} {f : Nat → Int} (h : ∀ e ∈ l, 1 ≤ f e) : (l.length : Int) ≤ (l.map f).sum := by
  induction l with
  | nil => simp
  | cons a l ih =>
    have := ih fun e he => h e (by simp [he])
    have := h a (by simp)
    rw [List.map_cons, List.sum_cons, List.length_cons]
    push_cast
    omega

/-- If two is the sum of positive numbers, one of them one, then there are two of them. -/
theorem two_ones {l : List Nat} {f : Nat → Int} (h : ∀ e ∈ l, 1 ≤ f e) (hs : (l.map f).sum = 2) {e : Nat} (he : e ∈ l) (h1 : f e = 1) :
    l.length = 2 ∧ ∀ e ∈ l, f e = 1 := by
  match l, he with
  | [a], he =>
    obtain rfl : e = a := by simpa using he
    simp at hs
    omega
  | [a, b], he =>
    simp only [List.map_cons, List.map_nil, List.sum_cons, List.sum_nil] at hs
    have ha := h a (by simp)
    have hb := h b (by simp)
    refine ⟨rfl, fun e he => ?_⟩
    simp only [List.mem_cons, List.not_mem_nil, or_false] at he
    rcases he with rfl | rfl <;> omega
  | a :: b :: c :: l, he =>
    have := sum_ge_length h
    rw [hs] at this
    simp at this
    omega

theorem tour_degree {r : Nat} {t : List Nat} (ht : IsTour g r t) (hlen : 3 ≤ t.length) {ps : List (Nat × Nat)}
    (h : (ps.map und).Perm ((consec t).map und)) (v : Nat) : degreeIn ps v = if v ∈ t then 2 else 0 := by
  rw [← adjOf_length, (adjOf_perm h v).length_eq]
  obtain ⟨m, rfl⟩ := ht.shape
  have hnd := ht.nodup
  rw [dropLast_tour] at hnd
  have hm : m ≠ [] := by rintro rfl; simp at hlen
  rw [adjOf_cycle_length hnd hm]
  have : v ∈ r :: (m ++ [r]) ↔ v ∈ r :: m := by simp; tauto
  simp only [this]

theorem OneLoop.loop_binary (hg : OneLoop g) {y : Nat → Int} (hy : ∀ e < g.edges.length, y e = 0 ∨ y e = 1) {v : Nat} (hv : v < g.n) :
    loopVal g y v = 0 ∨ loopVal g y v = 1 := by
  obtain ⟨i, hi⟩ := Option.isSome_iff_exists.1 (edgeIdx_isSome_iff.2 (Or.inl (hg.loops_mem v hv) : Adj g v v))
  rw [loopVal, hi, Option.getD_some]
  refine hy i ?_
  rcases edgeIdx_eq_some hi with h | h <;> exact (List.getElem?_eq_some_iff.1 h).1

/-- The objective value is the cost of the selected first copies. -/
theorem objective_picked {cost : Nat → Int} {y : Nat → Int} (hy : ∀ e < g.edges.length, y e = 0 ∨ y e = 1)
    (hl : ∀ e v, g.edges[e]? = some (v, v) → cost e = 0) (hc : FirstCosts g cost) :
    Pctsp.objective g cost y = halfCost g cost ((picked g (isFirst g) y).map (endsOf g)) := by
  have h1 : Pctsp.objective g cost y = ((picked g (isFirst g) y).map cost).sum := by
    have h2 := edgeSum_eq g cost fun e => decide ((endsOf g e).1 ≠ (endsOf g e).2) && isFirst g e && decide (y e = 1)
    rw [edgeSum] at h2
    rw [picked, h2, Pctsp.objective]
    congr 1
    refine List.map_congr_left fun e he => ?_
    have hlt := List.mem_range.1 he
    by_cases hne : (endsOf g e).1 = (endsOf g e).2
    · have hz : cost e = 0 := by
        refine hl e (endsOf g e).1 ?_
        rw [endsOf_getElem hlt]
        congr 1
        exact Prod.ext rfl hne.symm
      rw [hz]
      split <;> simp
    · by_cases hf : firstOf g e = e
      · rcases hy e hlt with h | h <;> simp [hne, isFirst, hf, h]
      · have hz : cost e = 0 := by
          refine hc e _ (endsOf_getElem hlt) fun hi => hf ?_
          rw [firstOf, hi]
          rfl
        rw [hz]
        split <;> simp
  rw [h1, halfCost, List.map_map]
  congr 1
  refine List.map_congr_left fun e he => ?_
  obtain ⟨hlt, -, hf, -⟩ := mem_picked.1 he
  simp only [isFirst, decide_eq_true_eq] at hf
  simp only [Function.comp]
  rw [pairCost_eq (by rw [(firstOf_spec hlt).1, hf])]

theorem halfCost_und {cost : Nat → Int} {M N : List (Nat × Nat)} (h : (M.map und).Perm (N.map und)) : halfCost g cost M = halfCost g cost N := by
  have key : ∀ l : List (Nat × Nat), halfCost g cost l = ((l.map und).map fun p => pairCost g cost p.1 p.2).sum := by
    intro l
    rw [halfCost, List.map_map]
    congr 1
    refine List.map_congr_left fun p _ => ?_
    simp only [Function.comp, und]
    rcases Nat.le_total p.1 p.2 with h | h
    · rw [Nat.min_eq_left h, Nat.max_eq_right h]
    · rw [Nat.min_eq_right h, Nat.max_eq_left h, pairCost_comm]
  rw [key, key, sum_eq_of_perm (h.map _)]

/-- A vector that passes the checks is an answer. -/
theorem OneLoop.answer_of_accepted (hg : OneLoop g) {prize : Nat → Int} {quota : Int} {root : Nat} (hroot : root < g.n) {rows : List Row}
    (hrows : modelWithoutSECs g prize quota root = .ok rows) {order : List Nat} (ho : order.Perm (List.range g.edges.length)) {y : Nat → Int}
    (hy : ∀ e < g.edges.length, y e = 0 ∨ y e = 1) (hsat : ∀ row ∈ rows, row.Sat y)
    (hsec : secCheck g order (fun e => decide (0 < y e)) = .ok .feasible) {cost : Nat → Int}
    (hl : ∀ e v, g.edges[e]? = some (v, v) → cost e = 0) (hc : FirstCosts g cost) :
    AnswerOf g cost prize quota root ((getSolutionEdges g order fun e => decide (0 < y e)).map (endsOf g)) (objective g cost y) := by
  obtain ⟨rows', h1, h2, -⟩ := hg.rows prize quota hroot
  obtain rfl : rows' = rows := by rw [h1] at hrows; exact Res.ok.inj hrows
  obtain ⟨hq, hrt, hdeg⟩ := (h2 y).1 hsat
  have hacc : isSimpleCycle g (getSolutionEdges g order fun e => decide (0 < y e)) = .ok true := by
    rw [secCheck, Res.bind_eq_ok] at hsec
    obtain ⟨b, hb, h⟩ := hsec
    cases b with
    | true => exact hb
    | false => simp [Res.pure_eq] at h
  have hsplit := picked_split (g := g) ho hy
  have hws := edgeSum_weighted (g := g) (y := y) fun e he _ => hy e he
  rw [objective_picked hy hl hc]
  set F := picked g (isFirst g) y with hF
  set S := picked g (fun e => !isFirst g e) y with hS
  have hFlt : ∀ e ∈ F, e < g.edges.length ∧ (endsOf g e).1 ≠ (endsOf g e).2 := fun e he => ⟨(mem_picked.1 he).1, (mem_picked.1 he).2.1⟩
  have hSlt : ∀ e ∈ S, e < g.edges.length ∧ (endsOf g e).1 ≠ (endsOf g e).2 := fun e he => ⟨(mem_picked.1 he).1, (mem_picked.1 he).2.1⟩
  have hFSlt : ∀ e ∈ F ++ S, e < g.edges.length ∧ (endsOf g e).1 ≠ (endsOf g e).2 := fun e he => by
    rcases List.mem_append.1 he with h | h
    · exact hFlt e h
    · exact hSlt e h
  have hloop : ∀ v < g.n, loopVal g y v = 0 ∨ loopVal g y v = 1 := fun v hv => hg.loop_binary hy hv
  have hd : ∀ v < g.n, ((F.filter (incident g v)).map fun e => (timesListed g (endsOf g e) : Int)).sum = 2 * loopVal g y v := fun v hv => by
    rw [← hws, hdeg v hv]
  have hone : ∀ (v : Nat), ∀ e ∈ F.filter (incident g v), (1 : Int) ≤ timesListed g (endsOf g e) := by
    intro v e he
    have := timesListed_pos (hFlt e (List.mem_filter.1 he).1).1
    omega
  have hinc : ∀ e ∈ F ++ S, incident g (endsOf g e).1 e = true ∧ incident g (endsOf g e).2 e = true := by
    intro e he
    obtain ⟨a, b⟩ := hFSlt e he
    rw [incident, incident, endsOf_getElem a]
    simp [b]
  have hinc' : ∀ {v e}, incident g v e = true → v = (endsOf g e).1 ∨ v = (endsOf g e).2 := by
    intro v e h
    obtain ⟨a, b⟩ := incident_ne h
    rw [incident, endsOf_getElem a] at h
    simp only [Bool.and_eq_true, decide_eq_true_eq, Bool.or_eq_true, beq_iff_eq] at h
    omega
  -- the root has a selected edge
  have hrootE : ∃ e ∈ F, incident g root e = true := by
    by_contra hcon
    have h3 := hd root hroot
    rw [hrt, List.filter_eq_nil_iff.2 fun e he hi => hcon ⟨e, he, hi⟩] at h3
    simp at h3
  obtain ⟨e0, he0, hi0⟩ := hrootE
  have hsol : ∀ e ∈ getSolutionEdges g order (fun e => decide (0 < y e)), e < g.edges.length := fun e he => (hFSlt e (hsplit.mem_iff.1 he)).1
  obtain ⟨t, ps, ht, hlen, hps, hperm, hmem⟩ := C30_accepted_is_tour g _ hsol hacc root
    ⟨e0, hsplit.mem_iff.2 (List.mem_append_left _ he0), _, endsOf_getElem (hFlt e0 he0).1, hinc' hi0⟩
  obtain ⟨rfl, -⟩ := forall₂_ends hps
  have hMN : ((getSolutionEdges g order fun e => decide (0 < y e)).map (endsOf g)).Perm (F.map (endsOf g) ++ S.map (endsOf g)) := by
    rw [← List.map_append]; exact hsplit.map _
  have hperm' : (((F ++ S).map (endsOf g)).map und).Perm ((consec t).map und) := ((hsplit.map _).map und).symm.trans hperm
  have hvt : ∀ v, v ∈ t ↔ ∃ e ∈ F ++ S, incident g v e = true := by
    intro v
    rw [hmem]
    constructor
    · rintro ⟨e, he, p, hp, hv⟩
      have he' := hsplit.mem_iff.1 he
      have := hinc e he'
      rw [endsOf_eq hp] at this
      refine ⟨e, he', ?_⟩
      rcases hv with rfl | rfl
      · exact this.1
      · exact this.2
    · rintro ⟨e, he, hi⟩
      exact ⟨e, hsplit.mem_iff.2 he, _, endsOf_getElem (hFSlt e he).1, hinc' hi⟩
  have hrange : ∀ {v e}, e ∈ F ++ S → incident g v e = true → v < g.n := by
    intro v e he hi
    have := hg.wf _ (List.mem_of_getElem? (endsOf_getElem (hFSlt e he).1))
    rcases hinc' hi with rfl | rfl
    · exact this.1
    · exact this.2
  -- a vertex with a selected edge that is listed once has two of them, and no other
  have hgood : ∀ v, (∃ e ∈ F, incident g v e = true ∧ timesListed g (endsOf g e) = 1) → loopVal g y v = 1 ∧
      ∀ e ∈ F ++ S, incident g v e = true → e ∈ F ∧ timesListed g (endsOf g e) = 1 := by
    rintro v ⟨e, he, hi, h1⟩
    have hv := hrange (List.mem_append_left _ he) hi
    have hef : e ∈ F.filter (incident g v) := List.mem_filter.2 ⟨he, hi⟩
    have hl1 : loopVal g y v = 1 := by
      rcases hloop v hv with h | h
      · have := sum_ge_length (hone v)
        rw [hd v hv, h] at this
        have := List.length_pos_of_mem hef
        omega
      · exact h
    have hs := hd v hv
    rw [hl1] at hs
    obtain ⟨k1, k2⟩ := two_ones (hone v) hs hef (by rw [h1]; rfl)
    have h3 := tour_degree ht hlen hperm' v
    rw [degreeIn_filter hFSlt, if_pos ((hvt v).2 ⟨e, List.mem_append_left _ he, hi⟩), List.filter_append, List.length_append, k1] at h3
    refine ⟨hl1, fun f hf hfi => ?_⟩
    rcases List.mem_append.1 hf with hf | hf
    · have := k2 f (List.mem_filter.2 ⟨hf, hfi⟩)
      exact ⟨hf, by omega⟩
    · have := List.length_pos_of_mem (List.mem_filter.2 ⟨hf, hfi⟩)
      omega
  -- being such a vertex is passed on along the tour
  have hstep : ∀ q ∈ consec t, (∃ e ∈ F, incident g q.1 e = true ∧ timesListed g (endsOf g e) = 1) ↔
      ∃ e ∈ F, incident g q.2 e = true ∧ timesListed g (endsOf g e) = 1 := by
    intro q hq
    have h3 := hperm'.mem_iff.2 (List.mem_map_of_mem hq)
    simp only [List.mem_map, exists_exists_and_eq_and] at h3
    obtain ⟨f, hf, hfq⟩ := h3
    have h4 := hinc f hf
    obtain ⟨a, b⟩ := q
    have h5 : incident g a f = true ∧ incident g b f = true := by
      rcases hee : endsOf g f with ⟨c, d⟩
      rw [hee] at hfq h4
      rcases und_eq_iff.1 hfq with ⟨rfl, rfl⟩ | ⟨rfl, rfl⟩
      · exact h4
      · exact h4.symm
    constructor
    · intro h
      obtain ⟨k1, k2⟩ := (hgood _ h).2 f hf h5.1
      exact ⟨f, k1, h5.2, k2⟩
    · intro h
      obtain ⟨k1, k2⟩ := (hgood _ h).2 f hf h5.2
      exact ⟨f, k1, h5.1, k2⟩
  have hFnd : ((F.map (endsOf g)).map und).Nodup := by
    rw [List.map_map]
    refine List.Nodup.map_on ?_ (picked_nodup _ _)
    intro e he f hf h
    exact first_unique h (mem_picked.1 he).2.2.1 (mem_picked.1 hf).2.2.1
  by_cases hr : ∃ e ∈ F, incident g root e = true ∧ timesListed g (endsOf g e) = 1
  · -- a tour along edges that are listed once
    have hall : ∀ v ∈ t, ∃ e ∈ F, incident g v e = true ∧ timesListed g (endsOf g e) = 1 := by
      obtain ⟨m, rfl⟩ := ht.shape
      exact consec_closed (P := fun v => ∃ e ∈ F, incident g v e = true ∧ timesListed g (endsOf g e) = 1) root (m ++ [root])
        (fun q hq => (hstep q hq).1) hr
    have hFS : ∀ e ∈ F ++ S, e ∈ F ∧ timesListed g (endsOf g e) = 1 := by
      intro e he
      have hi := (hinc e he).1
      exact (hgood _ (hall _ ((hvt _).2 ⟨e, he, hi⟩))).2 e he hi
    have hS0 : S = [] := by
      rw [List.eq_nil_iff_forall_not_mem]
      intro e he
      have h3 := (mem_picked.1 (hFS e (List.mem_append_right _ he)).1).2.2.1
      have h4 := (mem_picked.1 he).2.2.1
      simp [h3] at h4
    rw [hS0, List.append_nil] at hperm'
    have hloopt : ∀ v < g.n, loopVal g y v = if v ∈ t.dropLast then 1 else 0 := by
      intro v hv
      have hdl : v ∈ t.dropLast ↔ v ∈ t := by
        obtain ⟨m, rfl⟩ := ht.shape
        rw [dropLast_tour]; simp; tauto
      by_cases h : v ∈ t
      · rw [if_pos (hdl.2 h)]
        exact (hgood v (hall v h)).1
      · rw [if_neg fun h' => h (hdl.1 h')]
        have h3 := hd v hv
        rw [List.filter_eq_nil_iff.2 fun e he hi => h ((hvt v).2 ⟨e, List.mem_append_left _ he, hi⟩)] at h3
        simp at h3
        omega
    have hcost : halfCost g cost (F.map (endsOf g)) = walkCost g cost t := halfCost_und (N := consec t) hperm'
    rw [hcost]
    refine .once ⟨⟨ht, ?_, ?_⟩, ?_⟩ (edgesOfTour_of_und hperm)
    · by_contra h4
      obtain ⟨m, rfl⟩ := ht.shape
      match m, hlen, h4 with
      | [], hlen, _ => simp at hlen
      | [a], _, _ =>
        have h5 := hperm'.nodup hFnd
        simp only [List.nil_append, List.cons_append, consec, List.tail_cons, List.zip_cons_cons, List.zip_nil_right, List.map_cons, List.map_nil, List.nodup_cons, List.mem_singleton] at h5
        exact h5.1 (und_eq_iff.2 (Or.inr ⟨rfl, rfl⟩))
      | a :: b :: m, _, h4 => simp at h4
    · have h3 : ((List.range g.n).map fun v => prize v * loopVal g y v) = (List.range g.n).map fun v => prize v * (if v ∈ t.dropLast then 1 else 0) :=
        List.map_congr_left fun v hv => by rw [hloopt v (List.mem_range.1 hv)]
      rw [h3, sum_prize_mem ht.nodup fun v hv => tour_lt hg.wf ht v (List.mem_of_mem_dropLast hv)] at hq
      exact hq
    · intro q hq
      have h3 := hperm'.mem_iff.2 (List.mem_map_of_mem hq)
      simp only [List.mem_map, exists_exists_and_eq_and] at h3
      obtain ⟨f, hf, hfq⟩ := h3
      rw [← timesListed_und hfq]
      exact (hFS f (List.mem_append_left _ hf)).2
  · -- no vertex has such an edge
    have hnone : ∀ v ∈ t, ¬ ∃ e ∈ F, incident g v e = true ∧ timesListed g (endsOf g e) = 1 := by
      obtain ⟨m, rfl⟩ := ht.shape
      exact consec_closed (P := fun v => ¬ ∃ e ∈ F, incident g v e = true ∧ timesListed g (endsOf g e) = 1) root (m ++ [root])
        (fun q hq h h' => h ((hstep q hq).2 h')) hr
    have htwo : ∀ e ∈ F, timesListed g (endsOf g e) = 2 := by
      intro e he
      have hi := (hinc e (List.mem_append_left _ he)).1
      have h3 := hnone _ ((hvt _).2 ⟨e, List.mem_append_left _ he, hi⟩)
      have h4 := hone _ e (List.mem_filter.2 ⟨he, hi⟩)
      have h5 : (timesListed g (endsOf g e) : Int) ≤ ((F.filter (incident g (endsOf g e).1)).map fun e => (timesListed g (endsOf g e) : Int)).sum :=
        List.single_le_sum (fun z hz => by obtain ⟨f, -, rfl⟩ := List.mem_map.1 hz; omega) _
          (List.mem_map_of_mem (f := fun e => (timesListed g (endsOf g e) : Int)) (List.mem_filter.2 ⟨he, hi⟩))
      have hv := hrange (List.mem_append_left _ he) hi
      rw [hd _ hv] at h5
      have h6 := hloop _ hv
      have h7 : timesListed g (endsOf g e) ≠ 1 := fun h => h3 ⟨e, he, hi, h⟩
      omega
    have hes := edgeSum_firsts (g := g) (y := y) fun e he _ => hy e he
    have hwc := edgeSum_weighted_const (g := g) (y := y) (fun e he _ => hy e he) (k := 2) htwo
    have hd2 : ∀ v < g.n, (degreeIn (F.map (endsOf g)) v : Int) = loopVal g y v := by
      intro v hv
      have h3 := hwc v
      rw [hdeg v hv, hes, ← hF] at h3
      push_cast at h3
      omega
    have hrange' : ∀ v ∈ endpoints (F.map (endsOf g)), v < g.n := by
      intro v hv
      obtain ⟨p, hp, hv⟩ := List.mem_flatMap.1 hv
      obtain ⟨e, he, rfl⟩ := List.mem_map.1 hp
      have := hg.wf _ (List.mem_of_getElem? (endsOf_getElem (hFlt e he).1))
      simp only [List.mem_cons, List.not_mem_nil, or_false] at hv
      rcases hv with rfl | rfl
      · exact this.1
      · exact this.2
    have hnd : (endpoints (F.map (endsOf g))).Nodup := by
      rw [List.nodup_iff_count_le_one]
      intro v
      by_cases hv : v < g.n
      · rw [count_endpoints]
        have := hd2 v hv
        have := hloop v hv
        omega
      · rw [List.count_eq_zero_of_not_mem fun h => hv (hrange' v h)]
        omega
    have hmem' : ∀ v < g.n, loopVal g y v = if v ∈ endpoints (F.map (endsOf g)) then 1 else 0 := by
      intro v hv
      have h3 := hd2 v hv
      have h4 := hloop v hv
      rw [← count_endpoints] at h3
      by_cases h : v ∈ endpoints (F.map (endsOf g))
      · rw [if_pos h]
        have := List.count_pos_iff.2 h
        omega
      · rw [if_neg h]
        have := List.count_eq_zero_of_not_mem h
        omega
    refine .half (t := t) (N := S.map (endsOf g)) ⟨ht, hlen, edgesOfTour_of_und ((hMN.map und).symm.trans hperm), hnd, ?_, ?_, ?_, ?_⟩ hMN
    · by_contra h
      have := hmem' root hroot
      rw [if_neg h, hrt] at this
      omega
    · have h3 : ((List.range g.n).map fun v => prize v * loopVal g y v) =
          (List.range g.n).map fun v => prize v * (if v ∈ endpoints (F.map (endsOf g)) then 1 else 0) :=
        List.map_congr_left fun v hv => by rw [hmem' v (List.mem_range.1 hv)]
      rw [h3, sum_prize_mem hnd hrange'] at hq
      exact hq
    · intro p hp
      obtain ⟨e, he, rfl⟩ := List.mem_map.1 hp
      exact htwo e he
    · intro p hp
      obtain ⟨e, he, rfl⟩ := List.mem_map.1 hp
      refine timesListed_two (hSlt e he).1 fun h => ?_
      have := (mem_picked.1 he).2.2.1
      simp [isFirst, h] at this

/-- The vector of a half tour: the first copies of the edges of `M`, the second copies of those of `N`, the self-loops at the ends of `M`. -/
structure HalfVec (g : Graph) (M N : List (Nat × Nat)) (y : Nat → Int) : Prop where
  first : ∀ e < g.edges.length, (endsOf g e).1 ≠ (endsOf g e).2 → firstOf g e = e → y e = if und (endsOf g e) ∈ M.map und then 1 else 0
  second : ∀ e < g.edges.length, (endsOf g e).1 ≠ (endsOf g e).2 → firstOf g e ≠ e →
    y e = if secondOf g e = e ∧ und (endsOf g e) ∈ N.map und then 1 else 0
  loop : ∀ v < g.n, loopVal g y v = if v ∈ endpoints M then 1 else 0

theorem HalfVec.binary {M N : List (Nat × Nat)} {y : Nat → Int} (hg : OneLoop g) (h : HalfVec g M N y) : ∀ e < g.edges.length, y e = 0 ∨ y e = 1 := by
  intro e he
  by_cases hne : (endsOf g e).1 = (endsOf g e).2
  · have hp := endsOf_getElem he
    rcases hpe : endsOf g e with ⟨a, b⟩
    rw [hpe] at hp hne
    simp only at hne
    subst hne
    have h1 := h.loop a (hg.wf _ (List.mem_of_getElem? hp)).1
    rw [loopVal, hg.loopIdx hp, Option.getD_some] at h1
    rw [h1]
    split <;> simp
  · by_cases hf : firstOf g e = e
    · rw [h.first e he hne hf]
      split <;> simp
    · rw [h.second e he hne hf]
      split <;> simp

/-- What the argument needs about the parts of a half tour. -/
theorem HalfTour.parts {prize : Nat → Int} {quota : Int} {root : Nat} {t : List Nat} {M N : List (Nat × Nat)}
    (h : HalfTour g prize quota root t M N) :
    (M.map und).Nodup ∧ (N.map und).Nodup ∧ (∀ p ∈ M ++ N, p.1 ≠ p.2 ∧ Adj g p.1 p.2) := by
  obtain ⟨m, hm⟩ := h.tour.shape
  have hnd := h.tour.nodup
  have htwo := h.two
  refine ⟨?_, ?_, ?_⟩
  · have := h.apart
    generalize M = M' at this
    clear h hm hnd
    induction M' with
    | nil => simp
    | cons p M ih =>
      rw [endpoints, List.flatMap_cons, List.nodup_append] at this
      rw [List.map_cons, List.nodup_cons]
      refine ⟨fun hc => ?_, ih this.2.1⟩
      obtain ⟨q, hq, hqp⟩ := List.mem_map.1 hc
      obtain ⟨a, b⟩ := p
      obtain ⟨c, d⟩ := q
      have h3 : c ∈ M.flatMap fun e => [e.1, e.2] := List.mem_flatMap.2 ⟨_, hq, by simp⟩
      rcases und_eq_iff.1 hqp with ⟨rfl, rfl⟩ | ⟨rfl, rfl⟩
      · exact this.2.2 c (by simp) c h3 rfl
      · exact this.2.2 c (by simp) c h3 rfl
  · by_cases hlen : 4 ≤ t.length
    · have h3 := h.edges.und.symm.nodup (und_tour_nodup h.tour hlen)
      rw [List.map_append, List.nodup_append] at h3
      exact h3.2.1
    · have h3 := h.edges.und.length_eq
      have hM : M ≠ [] := by rintro rfl; have := h.root; simp [endpoints] at this
      have hM' := List.length_pos_of_ne_nil hM
      simp only [List.map_append, List.length_append, List.length_map, consec, List.length_zip, List.length_tail] at h3
      have : N.length ≤ 1 := by omega
      match N, this with
      | [], _ => simp
      | [a], _ => simp
  · intro p hp
    obtain ⟨qs, h1, h2⟩ := h.edges
    obtain ⟨q, hq, hpq⟩ := forall₂_left_mem h2 hp
    have hq' := h1.mem_iff.1 hq
    have h3 := h.tour.walk q hq'
    have h4 : q.1 ≠ q.2 := by
      subst hm
      rw [dropLast_tour] at hnd
      exact cycle_no_loop hnd (by rintro rfl; simp at htwo) _ hq'
    rcases hpq with rfl | rfl
    · exact ⟨h4, h3⟩
    · exact ⟨h4.symm, h3.symm⟩

/-- The vector of a half tour: what is selected. -/
theorem half_picked {prize : Nat → Int} {quota : Int} {root : Nat} {t : List Nat} {M N : List (Nat × Nat)}
    (h : HalfTour g prize quota root t M N) {y : Nat → Int} (hv : HalfVec g M N y) :
    (((picked g (isFirst g) y).map (endsOf g)).map und).Perm (M.map und) ∧
    (((picked g (fun e => !isFirst g e) y).map (endsOf g)).map und).Perm (N.map und) := by
  obtain ⟨h1, h2, h3⟩ := h.parts
  constructor
  · refine picked_perm (fun e f _ _ _ h h1 h2 => first_unique h h1 h2) (fun e he _ => first_exists he) h1
      (fun p hp => h3 p (List.mem_append_left _ hp)) fun e he hne hS => ?_
    rw [hv.first e he hne (by simpa [isFirst] using hS)]
    split
    · rename_i h; exact ⟨fun _ => h, fun _ => rfl⟩
    · rename_i h; exact ⟨fun h' => by omega, fun h' => absurd h' h⟩
  · have hpick : picked g (fun e => !isFirst g e) y = picked g (fun e => !isFirst g e && decide (secondOf g e = e)) y := by
      refine List.filter_congr fun e he => ?_
      have hlt := List.mem_range.1 he
      by_cases hne : (endsOf g e).1 = (endsOf g e).2
      · simp [hne]
      · by_cases hf : firstOf g e = e
        · simp [isFirst, hf]
        · by_cases hs : secondOf g e = e
          · simp [hs]
          · have := hv.second e hlt hne hf
            rw [if_neg fun h => hs h.1] at this
            simp [this]
    rw [hpick]
    refine picked_perm (fun e f he hf hne h h1 h2 => ?_) (fun e he hm => ?_) h2 (fun p hp => h3 p (List.mem_append_right _ hp)) fun e he hne hS => ?_
    · simp only [Bool.and_eq_true, decide_eq_true_eq] at h1 h2
      have := secondOf_und h
      omega
    · obtain ⟨p, hp, hpe⟩ := List.mem_map.1 hm
      have h4 : 2 ≤ timesListed g (endsOf g e) := by rw [← timesListed_und hpe]; exact h.more p hp
      obtain ⟨a, b, c, d⟩ := secondOf_spec he h4
      exact ⟨secondOf g e, a, b, by simp [isFirst, c, d]⟩
    · simp only [isFirst, Bool.and_eq_true, Bool.not_eq_true', decide_eq_false_iff_not, decide_eq_true_eq] at hS
      rw [hv.second e he hne hS.1]
      split
      · rename_i h; exact ⟨fun _ => h.2, fun _ => rfl⟩
      · rename_i h; exact ⟨fun h' => by omega, fun h' => absurd ⟨hS.2, h'⟩ h⟩

theorem OneLoop.half_degree (hg : OneLoop g) {prize : Nat → Int} {quota : Int} {root : Nat} {t : List Nat} {M N : List (Nat × Nat)}
    (h : HalfTour g prize quota root t M N) {y : Nat → Int} (hv : HalfVec g M N y) {v : Nat} (hvn : v < g.n) :
    edgeSum g (firsts g y) (incident g v) = loopVal g y v := by
  rw [edgeSum_firsts fun e he _ => hv.binary hg e he, degreeIn_und (half_picked h hv).1, ← count_endpoints, hv.loop v hvn]
  by_cases hm : v ∈ endpoints M
  · rw [if_pos hm, List.count_eq_one_of_mem h.apart hm]
    rfl
  · rw [if_neg hm, List.count_eq_zero_of_not_mem hm]
    rfl

theorem picked_twice {prize : Nat → Int} {quota : Int} {root : Nat} {t : List Nat} {M N : List (Nat × Nat)}
    (h : HalfTour g prize quota root t M N) {y : Nat → Int} (hv : HalfVec g M N y) : ∀ e ∈ picked g (isFirst g) y, timesListed g (endsOf g e) = 2 := by
  intro e he
  have h1 := (half_picked h hv).1.mem_iff.1 (List.mem_map_of_mem (List.mem_map_of_mem he))
  obtain ⟨p, hp, hpe⟩ := List.mem_map.1 h1
  rw [← timesListed_und hpe]
  exact h.twice p hp

/-- The vector of a half tour passes the checks. -/
theorem OneLoop.accepted_of_half (hg : OneLoop g) {prize : Nat → Int} {quota : Int} {root : Nat} (hroot : root < g.n) {rows : List Row}
    (hrows : modelWithoutSECs g prize quota root = .ok rows) {order : List Nat} (ho : order.Perm (List.range g.edges.length)) {y : Nat → Int}
    {t : List Nat} {M N : List (Nat × Nat)} (h : HalfTour g prize quota root t M N) (hv : HalfVec g M N y) :
    (∀ row ∈ rows, row.Sat y) ∧ secCheck g order (fun e => decide (0 < y e)) = .ok .feasible := by
  obtain ⟨rows', h1, h2, -⟩ := hg.rows prize quota hroot
  obtain rfl : rows' = rows := by rw [h1] at hrows; exact Res.ok.inj hrows
  obtain ⟨p1, p2⟩ := half_picked h hv
  have hrange := tour_range hg.wf h.tour h.edges
  constructor
  · refine (h2 y).2 ⟨?_, by rw [hv.loop root hroot, if_pos h.root], fun v hvn => ?_⟩
    · have h3 : ((List.range g.n).map fun v => prize v * loopVal g y v) =
          (List.range g.n).map fun v => prize v * (if v ∈ endpoints M then 1 else 0) :=
        List.map_congr_left fun v hvn => by rw [hv.loop v (List.mem_range.1 hvn)]
      rw [h3, sum_prize_mem h.apart hrange]
      exact h.prize
    · rw [edgeSum_weighted_const (fun e he _ => hv.binary hg e he) (picked_twice h hv), hg.half_degree h hv hvn]
      rfl
  · have hsplit := picked_split (g := g) ho (hv.binary hg)
    have hlt : ∀ e ∈ getSolutionEdges g order (fun e => decide (0 < y e)), e < g.edges.length := by
      intro e he
      rcases List.mem_append.1 (hsplit.mem_iff.1 he) with h | h <;> exact (mem_picked.1 h).1
    rw [secCheck, C30_tour_accepted g root t h.tour h.two _ _ (ends_forall₂ hlt)]
    · rfl
    · refine ((hsplit.map _).map und).trans ?_
      rw [List.map_append, List.map_append]
      refine (p1.append p2).trans ?_
      rw [← List.map_append]
      exact h.edges.und

/-- Every half tour has a vector. -/
theorem OneLoop.half_exists (hg : OneLoop g) (M N : List (Nat × Nat)) : ∃ y, HalfVec g M N y := by
  refine ⟨fun e => if (endsOf g e).1 = (endsOf g e).2 then (if (endsOf g e).1 ∈ endpoints M then 1 else 0)
    else if firstOf g e = e then (if und (endsOf g e) ∈ M.map und then 1 else 0)
    else if secondOf g e = e ∧ und (endsOf g e) ∈ N.map und then 1 else 0, fun e _ hne hf => by simp only [if_neg hne, if_pos hf],
    fun e _ hne hf => by simp only [if_neg hne, if_neg hf], fun v hv => ?_⟩
  obtain ⟨i, hi⟩ := Option.isSome_iff_exists.1 (edgeIdx_isSome_iff.2 (Or.inl (hg.loops_mem v hv) : Adj g v v))
  have hp : g.edges[i]? = some (v, v) := by rcases edgeIdx_eq_some hi with h | h <;> exact h
  simp only [loopVal, hi, Option.getD_some, endsOf_eq hp, if_true]

/-! ### Tours along edges that are listed once -/

theorem OnceTour.used {prize : Nat → Int} {quota : Int} {root : Nat} {t : List Nat} (h : OnceTour g prize quota root t) {es : List Nat} {y : Nat → Int}
    (hinc : IncidenceOf g t es y) {e : Nat} (he : e ∈ es) : firstOf g e = e ∧ timesListed g (endsOf g e) = 1 := by
  obtain ⟨h1, h2, -⟩ := incidence_nonloop h.tour (by have := h.three; omega) hinc
  have h3 := h1.mem_iff.1 (List.mem_map_of_mem (List.mem_map_of_mem he))
  obtain ⟨p, hp, hpe⟩ := List.mem_map.1 h3
  have h4 : timesListed g (endsOf g e) = 1 := by rw [← timesListed_und hpe]; exact h.once p hp
  refine ⟨?_, h4⟩
  by_contra hf
  have := timesListed_two (h2 e he) hf
  omega

theorem OnceTour.picked {prize : Nat → Int} {quota : Int} {root : Nat} {t : List Nat} (h : OnceTour g prize quota root t) {es : List Nat}
    {y : Nat → Int} (hinc : IncidenceOf g t es y) : (picked g (isFirst g) y).Perm es ∧ Pctsp.picked g (fun e => !isFirst g e) y = [] := by
  obtain ⟨h1, h2, h3⟩ := incidence_nonloop h.tour (by have := h.three; omega) hinc
  have hmem : ∀ e < g.edges.length, (endsOf g e).1 ≠ (endsOf g e).2 → (y e = 1 ↔ e ∈ es) := by
    intro e he hne
    rw [hinc.edge e _ _ (endsOf_getElem he) hne]
    split
    · rename_i h; exact ⟨fun _ => h, fun _ => rfl⟩
    · rename_i h; exact ⟨fun h' => by omega, fun h' => absurd h' h⟩
  constructor
  · rw [List.perm_ext_iff_of_nodup (picked_nodup _ _) hinc.nodup]
    intro e
    rw [mem_picked]
    constructor
    · rintro ⟨a, b, -, c⟩; exact (hmem e a b).1 c
    · intro he
      exact ⟨h2 e he, h3 e he, by simp [isFirst, (h.used hinc he).1], (hmem e (h2 e he) (h3 e he)).2 he⟩
  · rw [List.eq_nil_iff_forall_not_mem]
    intro e he
    obtain ⟨a, b, c, d⟩ := mem_picked.1 he
    have := (h.used hinc ((hmem e a b).1 d)).1
    simp [isFirst, this] at c

/-- The vector of such a tour passes the checks. -/
theorem OneLoop.accepted_of_once (hg : OneLoop g) {prize : Nat → Int} {quota : Int} {root : Nat} (hroot : root < g.n) {rows : List Row}
    (hrows : modelWithoutSECs g prize quota root = .ok rows) {order : List Nat} (ho : order.Perm (List.range g.edges.length)) {y : Nat → Int}
    (hy : ∀ e, y e = 0 ∨ y e = 1) {t es : List Nat} (h : OnceTour g prize quota root t) (hinc : IncidenceOf g t es y) :
    (∀ row ∈ rows, row.Sat y) ∧ secCheck g order (fun e => decide (0 < y e)) = .ok .feasible := by
  obtain ⟨rows', h1, h2, -⟩ := hg.rows prize quota hroot
  obtain rfl : rows' = rows := by rw [h1] at hrows; exact Res.ok.inj hrows
  have hlen : 3 ≤ t.length := by have := h.three; omega
  obtain ⟨p1, p2⟩ := h.picked hinc
  obtain ⟨k1, k2, k3⟩ := incidence_nonloop h.tour hlen hinc
  have hdl : ∀ v, v ∈ t.dropLast ↔ v ∈ t := by
    intro v
    obtain ⟨m, rfl⟩ := h.tour.shape
    rw [dropLast_tour]; simp; tauto
  constructor
  · refine (h2 y).2 ⟨?_, ?_, fun v hvn => ?_⟩
    · have h3 : ((List.range g.n).map fun v => prize v * loopVal g y v) =
          (List.range g.n).map fun v => prize v * (if v ∈ t.dropLast then 1 else 0) :=
        List.map_congr_left fun v hvn => by
          rw [loopVal_incidence hinc (hg.loops_mem v (List.mem_range.1 hvn))]
          simp only [hdl]
      rw [h3, sum_prize_mem h.tour.nodup fun v hv => tour_lt hg.wf h.tour v (List.mem_of_mem_dropLast hv)]
      exact h.prize
    · rw [loopVal_incidence hinc (hg.loops_mem root hroot), if_pos]
      obtain ⟨m, rfl⟩ := h.tour.shape
      simp
    · rw [edgeSum_weighted_const (fun e _ _ => hy e) (k := 1) fun e he => (h.used hinc (p1.mem_iff.1 he)).2,
        edgeSum_firsts fun e _ _ => hy e, loopVal_incidence hinc (hg.loops_mem v hvn), degreeIn_und ((p1.map _).map und), tour_degree h.tour hlen k1]
      split <;> rfl
  · have hsplit := picked_split (g := g) ho fun e _ => hy e
    rw [p2, List.append_nil] at hsplit
    have hlt : ∀ e ∈ getSolutionEdges g order (fun e => decide (0 < y e)), e < g.edges.length := fun e he =>
      (mem_picked.1 (hsplit.mem_iff.1 he)).1
    rw [secCheck, C30_tour_accepted g root t h.tour hlen _ _ (ends_forall₂ hlt)]
    · rfl
    · exact (((hsplit.trans p1).map _).map und).trans k1

end Pctsp
