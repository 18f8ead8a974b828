import Verif.Model.GraphUtil
import Verif.Lemmas.Sort
import Verif.Lemmas.Walk
import Verif.Lemmas.Renaming
import Mathlib.Data.List.Duplicate
import Mathlib.Data.List.NodupEquivFin

/-!
# Lemmas about the graph utilities
-/

namespace Pctsp

theorem upd_same {β : Type} (f : Nat → β) (i : Nat) (b : β) : upd f i b i = b := by simp [upd]
theorem upd_ne {β : Type} (f : Nat → β) {i j : Nat} (b : β) (h : j ≠ i) : upd f i b j = f j := by simp [upd, h]

theorem componentId_ok {m : Nat} {ids : List Nat} {v c : Nat} : componentId m ids v = .ok c ↔ ids[v]? = some c ∧ c < m := by
  unfold componentId
  cases h : ids[v]? with
  | none => simp
  | some d =>
    by_cases hd : d < m
    · simp [hd]; rintro rfl; exact hd
    · simp [hd]; rintro rfl; omega

theorem componentId_ub {m : Nat} {ids : List Nat} {v : Nat} (h : ¬ ∃ c, ids[v]? = some c ∧ c < m) : (componentId m ids v).isUb = true := by
  unfold componentId
  cases h' : ids[v]? with
  | none => rfl
  | some d =>
    by_cases hd : d < m
    · exact absurd ⟨d, h', hd⟩ h
    · simp [hd, Res.isUb]

theorem componentCountLoop_ok {m : Nat} {ids : List Nat} (vs : List Nat) (size : Nat → Nat)
    (h : ∀ v ∈ vs, ∃ c, ids[v]? = some c ∧ c < m) :
    componentCountLoop m ids vs size = .ok (fun c => size c + (vs.filter fun v => ids[v]? == some c).length) := by
  induction vs generalizing size with
  | nil => simp [componentCountLoop]
  | cons v vs ih =>
    obtain ⟨c, hc, hcm⟩ := h v (by simp)
    rw [componentCountLoop, componentId_ok.2 ⟨hc, hcm⟩, Res.ok_bind, ih _ (fun w hw => h w (by simp [hw]))]
    congr 1; funext d
    by_cases hd : d = c
    · subst hd; rw [upd_same]; simp [hc]; omega
    · rw [upd_ne _ _ hd]; simp [hc, Ne.symm hd]

theorem componentCountLoop_ub {m : Nat} {ids : List Nat} (vs : List Nat) (size : Nat → Nat)
    (h : ¬ ∀ v ∈ vs, ∃ c, ids[v]? = some c ∧ c < m) : (componentCountLoop m ids vs size).isUb = true := by
  induction vs generalizing size with
  | nil => simp at h
  | cons v vs ih =>
    rw [componentCountLoop]
    by_cases hv : ∃ c, ids[v]? = some c ∧ c < m
    · obtain ⟨c, hc⟩ := hv
      rw [componentId_ok.2 hc, Res.ok_bind]
      exact ih _ (fun hall => h (by
        intro w hw
        rcases List.mem_cons.1 hw with rfl | hw
        · exact ⟨c, hc⟩
        · exact hall w hw))
    · have := componentId_ub hv
      cases hx : componentId m ids v with
      | ok c => rw [hx] at this; cases this
      | throw e => rw [hx] at this; cases this
      | ub w => rfl

theorem componentFillLoop_ok {m : Nat} {ids : List Nat} (vs : List Nat) (A : Nat → List Nat)
    (h : ∀ v ∈ vs, ∃ c, ids[v]? = some c ∧ c < m) :
    componentFillLoop m ids vs (fun c => A c ++ List.replicate (vs.filter fun v => ids[v]? == some c).length 0) (fun c => (A c).length) =
      .ok (fun c => A c ++ vs.filter fun v => ids[v]? == some c) := by
  induction vs generalizing A with
  | nil => simp [componentFillLoop]
  | cons v vs ih =>
    obtain ⟨c, hc, hcm⟩ := h v (by simp)
    rw [componentFillLoop, componentId_ok.2 ⟨hc, hcm⟩, Res.ok_bind]
    rw [if_pos (by simp [hc])]
    have h1 : upd (fun c => A c ++ List.replicate ((v :: vs).filter fun v => ids[v]? == some c).length 0) c
        ((A c ++ List.replicate ((v :: vs).filter fun v => ids[v]? == some c).length 0).set (A c).length v) =
        fun d => upd A c (A c ++ [v]) d ++ List.replicate (vs.filter fun v => ids[v]? == some d).length 0 := by
      funext d
      by_cases hd : d = c
      · subst hd; rw [upd_same, upd_same]; simp [hc, List.replicate_succ]
      · rw [upd_ne _ _ hd, upd_ne _ _ hd]; simp [hc, Ne.symm hd]
    have h2 : upd (fun c => (A c).length) c ((A c).length + 1) = fun d => (upd A c (A c ++ [v]) d).length := by
      funext d
      by_cases hd : d = c
      · subst hd; rw [upd_same, upd_same]; simp
      · rw [upd_ne _ _ hd, upd_ne _ _ hd]
    rw [h1, h2, ih _ (fun w hw => h w (by simp [hw]))]
    congr 1; funext d
    by_cases hd : d = c
    · subst hd; rw [upd_same]; simp [hc]
    · rw [upd_ne _ _ hd]; simp [hc, Ne.symm hd]

theorem getConnectedComponentsVectors_ok {n m : Nat} {ids : List Nat} (h : ∀ v < n, ∃ c, ids[v]? = some c ∧ c < m) :
    getConnectedComponentsVectors n m ids =
      .ok ((List.range m).map fun c => (List.range n).filter fun v => ids[v]? == some c) := by
  have h' : ∀ v ∈ List.range n, ∃ c, ids[v]? = some c ∧ c < m := fun v hv => h v (by simpa using hv)
  rw [getConnectedComponentsVectors, componentCountLoop_ok _ _ h', Res.ok_bind]
  have := componentFillLoop_ok (List.range n) (fun _ => []) h'
  simp only [List.nil_append, List.length_nil] at this
  simp only [Nat.zero_add, this, Res.ok_bind, Res.pure_eq]

theorem getConnectedComponentsVectors_ub {n m : Nat} {ids : List Nat} (h : ¬ ∀ v < n, ∃ c, ids[v]? = some c ∧ c < m) :
    (getConnectedComponentsVectors n m ids).isUb = true := by
  have := componentCountLoop_ub (m := m) (ids := ids) (List.range n) (fun _ => 0) (by simpa using h)
  rw [getConnectedComponentsVectors]
  cases hx : componentCountLoop m ids (List.range n) (fun _ => 0) with
  | ok c => rw [hx] at this; cases this
  | throw e => rw [hx] at this; cases this
  | ub w => rfl

theorem nonSingularIds_length {α : Type} (i : Nat) (cs : List (List α)) :
    (nonSingularIds i cs).length = cs.countP (fun c => decide (1 < c.length)) := by
  induction cs generalizing i with
  | nil => rfl
  | cons c cs ih =>
    rw [nonSingularIds, List.countP_cons]
    by_cases h : c.length > 1
    · simp [h, ih]
    · simp [h, ih]

theorem copyComponentsLoop_ok {α : Type} (comps : List (List α)) (i : Nat) (ids : List Nat) (h : i + ids.length ≤ comps.length) :
    copyComponentsLoop comps i ids = .ok ((comps.drop i).take ids.length) := by
  induction ids generalizing i with
  | nil => simp [copyComponentsLoop]
  | cons d ids ih =>
    simp only [List.length_cons] at h
    have hi : i < comps.length := by omega
    rw [copyComponentsLoop, List.getElem?_eq_getElem hi]
    simp only
    rw [ih (i + 1) (by omega), Res.ok_bind, List.length_cons, List.drop_eq_getElem_cons hi, List.take_succ_cons]
    rfl

theorem getNonSingular_eq {α : Type} (comps : List (List α)) :
    getNonSingularConnectedComponentVectors comps = .ok (comps.take (comps.countP fun c => decide (1 < c.length))) := by
  rw [getNonSingularConnectedComponentVectors, copyComponentsLoop_ok, nonSingularIds_length]
  · simp
  · rw [nonSingularIds_length]; simpa using List.countP_le_length

theorem foldl_addLoops (vs : List Nat) (g : Graph) (cost : Nat → Int) (h : ∀ v ∈ vs, v < g.n) :
    (vs.foldl (fun s v => (s.1.addEdge v v, upd s.2 s.1.edges.length 0)) (g, cost)) =
      (({ n := g.n, edges := g.edges ++ vs.map fun v => (v, v) } : Graph),
        fun e => if g.edges.length ≤ e ∧ e < g.edges.length + vs.length then 0 else cost e) := by
  induction vs generalizing g cost with
  | nil =>
    simp only [List.foldl_nil, List.map_nil, List.append_nil, List.length_nil, Prod.mk.injEq, true_and]
    funext e; rw [if_neg (by omega)]
  | cons v vs ih =>
    have hv : v < g.n := h v (by simp)
    have hn : (g.addEdge v v).n = g.n := by simp only [Graph.addEdge]; omega
    rw [List.foldl_cons]
    simp only
    rw [ih _ _ (by intro w hw; rw [hn]; exact h w (by simp [hw])), hn]
    simp only [Graph.addEdge, Prod.mk.injEq]
    refine ⟨by simp, ?_⟩
    funext e
    simp only [List.length_append, List.length_cons, List.length_nil, upd]
    split <;> split <;> first | rfl | (split <;> first | rfl | omega) | omega

theorem addSelfLoops_eq (g : Graph) (cost : Nat → Int) :
    addSelfLoopsToGraph g cost = (({ n := g.n, edges := g.edges ++ (List.range g.n).map fun v => (v, v) } : Graph),
        fun e => if g.edges.length ≤ e ∧ e < g.edges.length + g.n then 0 else cost e) := by
  rw [addSelfLoopsToGraph, foldl_addLoops _ _ _ (by simp)]
  simp

theorem hasSelfLoops_iff (g : Graph) : hasSelfLoopsOnAllVertices g = true ↔ ∀ v < g.n, (v, v) ∈ g.edges := by
  simp only [hasSelfLoopsOnAllVertices, List.all_eq_true, List.mem_range, edgeIdx_isSome_iff]
  simp [Adj]

theorem foldl_assignZero (g : Graph) (vs : List Nat) (cost : Nat → Int) (e : Nat) :
    (vs.foldl (fun cost v => match g.edgeIdx v v with
      | some e => upd cost e 0
      | none => cost) cost) e = if ∃ v ∈ vs, g.edgeIdx v v = some e then 0 else cost e := by
  induction vs generalizing cost with
  | nil => simp
  | cons v vs ih =>
    rw [List.foldl_cons, ih]
    cases h : g.edgeIdx v v with
    | none => simp [h]
    | some d =>
      by_cases hd : d = e
      · subst hd; simp [h, upd_same]
      · simp [h, hd, upd_ne _ _ (Ne.symm hd)]

theorem assignZero_eq (g : Graph) (cost : Nat → Int) (e : Nat) :
    assignZeroCostToSelfLoops g cost e = if ∃ v < g.n, g.edgeIdx v v = some e then 0 else cost e := by
  have := foldl_assignZero g (List.range g.n) cost e
  simp only [List.mem_range] at this
  exact this

theorem edgeIdx_loop_of_count_one {g : Graph} {v e : Nat} (he : g.edges[e]? = some (v, v)) (h1 : g.edges.count (v, v) ≤ 1) :
    g.edgeIdx v v = some e := by
  have hadj : Adj g v v := Or.inl (List.mem_of_getElem? he)
  obtain ⟨i, hi⟩ := Option.isSome_iff_exists.1 (edgeIdx_isSome_iff.2 hadj)
  have hi' := edgeIdx_eq_some hi
  have hie : g.edges[i]? = some (v, v) := by
    rcases hi' with h | h <;> exact h
  rw [hi]
  by_contra hne
  have hne' : i ≠ e := fun h => hne (by rw [h])
  have hil : i < g.edges.length := (List.getElem?_eq_some_iff.1 hie).1
  have hel : e < g.edges.length := (List.getElem?_eq_some_iff.1 he).1
  have hgi : g.edges[i] = (v, v) := (List.getElem?_eq_some_iff.1 hie).2
  have hge : g.edges[e] = (v, v) := (List.getElem?_eq_some_iff.1 he).2
  have h2 : (2 : Nat) ≤ g.edges.count (v, v) := by
    have : List.Duplicate (v, v) g.edges := by
      rw [List.duplicate_iff_exists_distinct_get]
      rcases Nat.lt_or_gt_of_ne hne' with hlt | hlt
      · exact ⟨⟨i, hil⟩, ⟨e, hel⟩, hlt, hgi.symm, hge.symm⟩
      · exact ⟨⟨e, hel⟩, ⟨i, hil⟩, hlt, hge.symm, hgi.symm⟩
    have h := List.duplicate_iff_two_le_count.1 this
    convert h
  omega

theorem count_loops (n v : Nat) : ((List.range n).map fun v => (v, v)).count (v, v) = if v < n then 1 else 0 := by
  induction n with
  | zero => rfl
  | succ n ih =>
    rw [List.range_succ, List.map_append, List.count_append, ih]
    simp only [List.map_cons, List.map_nil, List.count_cons, List.count_nil, Nat.zero_add, beq_iff_eq, Prod.mk.injEq]
    split <;> split <;> split <;> omega

theorem ends_ok {g : Graph} {e : Nat} {p : Nat × Nat} : g.ends e = .ok p ↔ g.edges[e]? = some p := by
  unfold Graph.ends
  cases g.edges[e]? <;> simp

theorem setInsert_spec {s : List Nat} (h : s.Pairwise (· < ·)) (x : Nat) :
    (setInsert s x).Pairwise (· < ·) ∧ ∀ y, y ∈ setInsert s x ↔ y ∈ s ∨ y = x := by
  unfold setInsert
  by_cases hx : x ∈ s
  · simp only [List.contains_iff_mem, hx, if_true]
    refine ⟨h, fun y => ⟨Or.inl, ?_⟩⟩
    rintro (h | rfl)
    · exact h
    · exact hx
  · simp only [List.contains_iff_mem, hx, if_false]
    have hp := insertSorted_perm x s
    have hs := insertSorted_sorted x (h.imp (fun h => Nat.le_of_lt h))
    have hnd : (insertSorted x s).Nodup := hp.nodup_iff.2 (List.nodup_cons.2 ⟨hx, h.imp (fun h => Nat.ne_of_lt h)⟩)
    refine ⟨?_, fun y => ?_⟩
    · exact (hs.and hnd).imp (fun h => Nat.lt_of_le_of_ne h.1 h.2)
    · rw [hp.mem_iff, List.mem_cons]; exact or_comm

theorem verticesOfEdgesLoop_ok (g : Graph) (es : List Nat) (s : List Nat) (hs : s.Pairwise (· < ·)) (he : ∀ e ∈ es, e < g.edges.length) :
    ∃ r, verticesOfEdgesLoop g es s = .ok r ∧ r.Pairwise (· < ·) ∧
      ∀ y, y ∈ r ↔ y ∈ s ∨ ∃ e ∈ es, ∃ p, g.edges[e]? = some p ∧ (y = p.1 ∨ y = p.2) := by
  induction es generalizing s with
  | nil => exact ⟨s, rfl, hs, by simp⟩
  | cons e es ih =>
    have hel := he e (by simp)
    obtain ⟨h1, m1⟩ := setInsert_spec hs (g.edges[e]).1
    obtain ⟨h2, m2⟩ := setInsert_spec h1 (g.edges[e]).2
    obtain ⟨r, hr, hp, hm⟩ := ih _ h2 (fun f hf => he f (by simp [hf]))
    refine ⟨r, ?_, hp, ?_⟩
    · rw [verticesOfEdgesLoop, ends_ok.2 (List.getElem?_eq_getElem hel), Res.ok_bind]; exact hr
    · intro y
      rw [hm, m2, m1]
      simp only [List.mem_cons, exists_eq_or_imp, List.getElem?_eq_getElem hel, Option.some.injEq, exists_eq_left', or_assoc]

theorem verticesOfEdgesLoop_ub (g : Graph) (es : List Nat) (s : List Nat) (he : ¬ ∀ e ∈ es, e < g.edges.length) :
    (verticesOfEdgesLoop g es s).isUb = true := by
  induction es generalizing s with
  | nil => simp at he
  | cons e es ih =>
    rw [verticesOfEdgesLoop]
    by_cases hel : e < g.edges.length
    · rw [ends_ok.2 (List.getElem?_eq_getElem hel), Res.ok_bind]
      exact ih _ (fun h => he (by
        intro f hf
        rcases List.mem_cons.1 hf with rfl | hf
        · exact hel
        · exact h f hf))
    · simp only [Graph.ends, List.getElem?_eq_none (Nat.not_lt.1 hel)]; rfl

theorem getSelfLoops_ok {g : Graph} {vs es : List Nat} :
    getSelfLoops g vs = .ok es ↔ List.Forall₂ (fun v e => v < g.n ∧ g.edgeIdx v v = some e) vs es := by
  induction vs generalizing es with
  | nil => cases es <;> simp [getSelfLoops]
  | cons v vs ih =>
    rw [getSelfLoops]
    by_cases hv : v < g.n
    · simp only [Graph.edge, hv, if_true, Res.ok_bind]
      cases h : g.edgeIdx v v with
      | none => cases es <;> simp [h]
      | some e =>
        simp only [Res.bind_eq_ok, Res.pure_eq, Res.ok.injEq, ih]
        constructor
        · rintro ⟨r, hr, rfl⟩; exact List.Forall₂.cons ⟨hv, h⟩ hr
        · rintro (_ | ⟨⟨_, h1⟩, h2⟩)
          rw [h] at h1; cases h1
          exact ⟨_, h2, rfl⟩
    · simp only [Graph.edge, hv, if_false, Res.ub_bind]
      cases es <;> simp [hv]

theorem getSelfLoops_throw {g : Graph} (pre : List Nat) (v : Nat) (post : List Nat) (hpre : ∀ u ∈ pre, u < g.n ∧ Adj g u u)
    (hv : v < g.n) (hn : ¬ Adj g v v) : getSelfLoops g (pre ++ v :: post) = .throw (.noSelfLoopFound v) := by
  induction pre with
  | nil =>
    rw [List.nil_append, getSelfLoops]
    simp [Graph.edge, hv, edgeIdx_eq_none_iff.2 hn]
  | cons u pre ih =>
    obtain ⟨hu, ha⟩ := hpre u (by simp)
    obtain ⟨i, hi⟩ := Option.isSome_iff_exists.1 (edgeIdx_isSome_iff.2 ha)
    rw [List.cons_append, getSelfLoops]
    simp [Graph.edge, hu, hi, ih (fun w hw => hpre w (by simp [hw]))]

theorem inducedInner_ok {g : Graph} {u : Nat} (hu : u < g.n) (vs : List Nat) :
    inducedInner g u vs = .ok (vs.filterMap (g.edgeIdx u)) := by
  induction vs with
  | nil => rfl
  | cons v vs ih =>
    rw [inducedInner]
    simp only [Graph.edge, hu, if_true, Res.ok_bind, ih, Res.pure_eq]
    cases h : g.edgeIdx u v <;> simp [h]

/-- The pairs of entries at positions `i < j`, in lexicographic order of the positions. -/
def orderedPairs {α : Type} : List α → List (α × α)
  | [] => []
  | u :: vs => vs.map (fun v => (u, v)) ++ orderedPairs vs

theorem getEdgesInduced_ok {g : Graph} (vs : List Nat) (h : ∀ v ∈ vs, v < g.n) :
    getEdgesInducedByVertices g vs = .ok ((orderedPairs vs).filterMap fun p => g.edgeIdx p.1 p.2) := by
  induction vs with
  | nil => rfl
  | cons u vs ih =>
    rw [getEdgesInducedByVertices, inducedInner_ok (h u (by simp)), Res.ok_bind, ih (fun v hv => h v (by simp [hv])), Res.ok_bind]
    simp only [orderedPairs, List.filterMap_append, List.filterMap_map, Res.pure_eq]
    rfl

theorem edgesFromVertexPairs_ok {g : Graph} {ps : List (Nat × Nat)} {es : List Nat} :
    edgesFromVertexPairs g ps = .ok es ↔ List.Forall₂ (fun p e => p.1 < g.n ∧ g.edgeIdx p.1 p.2 = some e) ps es := by
  induction ps generalizing es with
  | nil => cases es <;> simp [edgesFromVertexPairs]
  | cons p ps ih =>
    rw [edgesFromVertexPairs]
    by_cases hv : p.1 < g.n
    · simp only [Graph.edge, hv, if_true, Res.ok_bind]
      cases h : g.edgeIdx p.1 p.2 with
      | none => cases es <;> simp [h]
      | some e =>
        simp only [Res.bind_eq_ok, Res.pure_eq, Res.ok.injEq, ih]
        constructor
        · rintro ⟨r, hr, rfl⟩; exact List.Forall₂.cons ⟨hv, h⟩ hr
        · rintro (_ | ⟨⟨_, h1⟩, h2⟩)
          rw [h] at h1; cases h1
          exact ⟨_, h2, rfl⟩
    · simp only [Graph.edge, hv, if_false, Res.ub_bind]
      cases es <;> simp [hv]

theorem edgesFromVertexPairs_throw {g : Graph} (pre : List (Nat × Nat)) (p : Nat × Nat) (post : List (Nat × Nat))
    (hpre : ∀ q ∈ pre, q.1 < g.n ∧ Adj g q.1 q.2) (hv : p.1 < g.n) (hn : ¬ Adj g p.1 p.2) :
    edgesFromVertexPairs g (pre ++ p :: post) = .throw (.edgeNotFound p.1 p.2) := by
  induction pre with
  | nil =>
    rw [List.nil_append, edgesFromVertexPairs]
    simp [Graph.edge, hv, edgeIdx_eq_none_iff.2 hn]
  | cons u pre ih =>
    obtain ⟨hu, ha⟩ := hpre u (by simp)
    obtain ⟨i, hi⟩ := Option.isSome_iff_exists.1 (edgeIdx_isSome_iff.2 ha)
    rw [List.cons_append, edgesFromVertexPairs]
    simp [Graph.edge, hu, hi, ih (fun w hw => hpre w (by simp [hw]))]

theorem getEdgeVector_eq (g : Graph) : getEdgeVectorOfGraph g = List.range g.edges.length := by
  have : ∀ n, ((List.range n).foldl (fun (s : List Nat × Nat) e => (s.1.take s.2 ++ e :: s.1.drop s.2, s.2 + 1)) ([], 0)) =
      (List.range n, n) := by
    intro n
    induction n with
    | zero => rfl
    | succ n ih =>
      rw [List.range_succ, List.foldl_append, ih]
      have h1 : List.take n (List.range n) = List.range n := List.take_of_length_le (by simp)
      have h2 : List.drop n (List.range n) = [] := List.drop_of_length_le (by simp)
      simp [h1, h2]
  rw [getEdgeVectorOfGraph, this]

theorem putPrize_aux (g : Graph) (prize : Nat → Int) (es : List (Nat × Nat)) (hes : ∀ e ∈ es, e ∈ g.edges) (w : Nat → Int) (i : Nat) (p : Nat × Nat)
    (hi : g.edges[i]? = some p) :
    (es.foldl (fun w e => match g.edgeIdx e.1 e.2 with
      | some i => upd w i (if e.1 = e.2 then prize e.1 else 0)
      | none => w) w) i =
      if g.edgeIdx p.1 p.2 = some i ∧ (p ∈ es ∨ (p.2, p.1) ∈ es) then (if p.1 = p.2 then prize p.1 else 0) else w i := by
  induction es generalizing w with
  | nil => simp
  | cons e es ih =>
    rw [List.foldl_cons, ih (fun f hf => hes f (by simp [hf]))]
    have hadj : Adj g e.1 e.2 := Or.inl (hes e (by simp))
    obtain ⟨d, hd⟩ := Option.isSome_iff_exists.1 (edgeIdx_isSome_iff.2 hadj)
    have hmem : ∀ q : Nat × Nat, q ∈ e :: es ↔ q = e ∨ q ∈ es := fun q => List.mem_cons
    have hd' := edgeIdx_eq_some hd
    simp only [hd, hmem]
    by_cases hdi : d = i
    · subst hdi
      rw [hi] at hd'
      simp only [Option.some.injEq] at hd'
      rw [upd_same]
      rcases hd' with rfl | rfl
      · simp [hd]
      · rw [edgeIdx_comm] at hd
        simp only [hd, true_and, Prod.mk.eta, true_or, or_true, if_true]
        by_cases h : e.1 = e.2
        · simp [h]
        · simp [h, Ne.symm h]
    · rw [upd_ne _ _ (Ne.symm hdi)]
      by_cases hp : g.edgeIdx p.1 p.2 = some i
      · have h1 : p ≠ e := by rintro rfl; rw [hp] at hd; cases hd; exact hdi rfl
        have h2 : (p.2, p.1) ≠ e := by rintro rfl; rw [edgeIdx_comm] at hd; simp only at hd; rw [hp] at hd; cases hd; exact hdi rfl
        simp [hp, h1, h2]
      · simp [hp]

theorem putPrize_eq (g : Graph) (prize : Nat → Int) {i : Nat} {p : Nat × Nat} (hi : g.edges[i]? = some p) :
    putPrizeOntoEdgeWeights g prize i = if p.1 = p.2 ∧ g.edgeIdx p.1 p.1 = some i then prize p.1 else 0 := by
  have := putPrize_aux g prize g.edges (fun _ h => h) (fun _ => 0) i p hi
  rw [putPrizeOntoEdgeWeights]
  refine this.trans ?_
  have hm : p ∈ g.edges := List.mem_of_getElem? hi
  by_cases h : p.1 = p.2
  · rw [← h]; simp [hm, h]
  · simp [h]

end Pctsp
