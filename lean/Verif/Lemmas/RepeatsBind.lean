import Verif.Lemmas.RepeatsHeur
import Verif.Model.Binding

/-! Helper lemmas: the bindings on lists in which edges occur several times. -/

namespace Pctsp

variable {α : Type} [DecidableEq α]

theorem SameEdge.endpoints {p q : α × α} (h : SameEdge p q) : ∀ x, (x = q.1 ∨ x = q.2) → x = p.1 ∨ x = p.2 := by
  rcases h with rfl | rfl
  · exact fun x h => h
  · exact fun x h => h.symm

theorem endpoints_cons (e : α × α) (es : List (α × α)) : endpoints (e :: es) = e.1 :: e.2 :: endpoints es := rfl

theorem keepFrom_foldl (seen es : List (α × α)) (D : List α) (hD : ∀ p ∈ seen, p.1 ∈ D ∧ p.2 ∈ D) :
    (endpoints (keepFrom seen es)).foldl addNew D = (endpoints es).foldl addNew D := by
  induction es generalizing seen D with
  | nil => rfl
  | cons e es ih =>
    rw [keepFrom]
    split
    · rename_i hs
      obtain ⟨p, hp, hpe⟩ := hs
      have h1 : e.1 ∈ D := by rcases hpe.endpoints e.1 (Or.inl rfl) with h | h <;> rw [h]; exacts [(hD p hp).1, (hD p hp).2]
      have h2 : e.2 ∈ D := by rcases hpe.endpoints e.2 (Or.inr rfl) with h | h <;> rw [h]; exacts [(hD p hp).1, (hD p hp).2]
      rw [ih seen D hD, endpoints_cons, List.foldl_cons, List.foldl_cons]
      have e1 : addNew D e.1 = D := by rw [addNew, if_pos h1]
      rw [e1]
      have e2 : addNew D e.2 = D := by rw [addNew, if_pos h2]
      rw [e2]
    · rw [endpoints_cons, endpoints_cons, List.foldl_cons, List.foldl_cons, List.foldl_cons, List.foldl_cons]
      refine ih (e :: seen) _ fun p hp => ?_
      rcases List.mem_cons.1 hp with rfl | hp
      · exact ⟨mem_addNew.2 (Or.inl (mem_addNew.2 (Or.inr rfl))), mem_addNew.2 (Or.inr rfl)⟩
      · exact ⟨mem_addNew.2 (Or.inl (mem_addNew.2 (Or.inl (hD p hp).1))), mem_addNew.2 (Or.inl (mem_addNew.2 (Or.inl (hD p hp).2)))⟩

theorem firstSeen_keepFirst (es : List (α × α)) : firstSeen (keepFirst es) = firstSeen es := keepFrom_foldl [] es [] (by simp)

/-- Names of edges are unique. -/
theorem Names.unique {D : List α} (hD : D.Nodup) {e : α × α} {a b : Nat × Nat} (ha : Names D e a) (hb : Names D e b) : a = b :=
  Prod.ext (nodup_getElem?_inj hD ha.1 hb.1) (nodup_getElem?_inj hD ha.2 hb.2)

theorem names_forall₂_unique {D : List α} (hD : D.Nodup) {es : List (α × α)} {a b : List (Nat × Nat)} (ha : List.Forall₂ (Names D) es a)
    (hb : List.Forall₂ (Names D) es b) : a = b := by
  induction ha generalizing b with
  | nil => cases hb; rfl
  | cons h1 _ ih => cases hb with | cons k1 k2 => rw [h1.unique hD k1, ih k2]

theorem sameEdge_names {D : List α} (hD : D.Nodup) {p e : α × α} {p' e' : Nat × Nat} (hp : Names D p p') (he : Names D e e') :
    SameEdge p' e' ↔ SameEdge p e := by
  constructor
  · rintro (rfl | rfl)
    · left
      exact Prod.ext (Option.some.inj (hp.1.symm.trans he.1)) (Option.some.inj (hp.2.symm.trans he.2))
    · right
      exact Prod.ext (Option.some.inj (hp.1.symm.trans he.2)) (Option.some.inj (hp.2.symm.trans he.1))
  · rintro (rfl | rfl)
    · exact Or.inl (hp.unique hD he)
    · right
      exact Prod.ext (nodup_getElem?_inj hD hp.1 he.2) (nodup_getElem?_inj hD hp.2 he.1)

theorem keepFrom_names {D : List α} (hD : D.Nodup) {es : List (α × α)} {ne : List (Nat × Nat)} (h : List.Forall₂ (Names D) es ne)
    {seen : List (α × α)} {seen' : List (Nat × Nat)} (hs : List.Forall₂ (Names D) seen seen') :
    List.Forall₂ (Names D) (keepFrom seen es) (keepFrom seen' ne) := by
  induction h generalizing seen seen' with
  | nil => exact .nil
  | @cons e e' es ne h1 _ ih =>
    have hiff : (∃ p ∈ seen', SameEdge p e') ↔ ∃ p ∈ seen, SameEdge p e := by
      constructor
      · rintro ⟨p', hp', hse⟩
        obtain ⟨i, hi⟩ := List.getElem?_of_mem hp'
        obtain ⟨p, hp, hn⟩ := (forall₂_getElem? hs).2 p' hi
        exact ⟨p, List.mem_of_getElem? hp, (sameEdge_names hD hn h1).1 hse⟩
      · rintro ⟨p, hp, hse⟩
        obtain ⟨i, hi⟩ := List.getElem?_of_mem hp
        obtain ⟨p', hp', hn⟩ := (forall₂_getElem? hs).1 p hi
        exact ⟨p', List.mem_of_getElem? hp', (sameEdge_names hD hn h1).2 hse⟩
    rw [keepFrom, keepFrom]
    by_cases hk : ∃ p ∈ seen, SameEdge p e
    · rw [if_pos hk, if_pos (hiff.2 hk)]
      exact ih hs
    · rw [if_neg hk, if_neg (fun hc => hk (hiff.1 hc))]
      exact .cons h1 (ih (.cons h1 hs))

theorem renameEdges_keepFirst (es : List (α × α)) :
    renameEdges [] (keepFirst es) = (keepFirst (renameEdges [] es).1, (renameEdges [] es).2) := by
  obtain ⟨ne, h1, h2⟩ := renameEdges_nil es
  obtain ⟨ne', h3, h4⟩ := renameEdges_nil (keepFirst es)
  rw [firstSeen_keepFirst] at h3 h4
  rw [h1, h3, names_forall₂_unique (firstSeen_nodup es) h4 (keepFrom_names (firstSeen_nodup es) h2 .nil)]
  rfl

/-! ### The graph -/

theorem graph_n_le (ps : List (Nat × Nat)) (g : Graph) (k : Nat) : (g.addEdges ps).n ≤ k ↔ g.n ≤ k ∧ ∀ p ∈ ps, p.1 < k ∧ p.2 < k := by
  induction ps generalizing g with
  | nil => simp [Graph.addEdges]
  | cons p ps ih =>
    have : g.addEdges (p :: ps) = (g.addEdge p.1 p.2).addEdges ps := rfl
    rw [this, ih]
    simp only [Graph.addEdge, List.mem_cons, forall_eq_or_imp]
    constructor
    · rintro ⟨h1, h2⟩; exact ⟨by omega, ⟨by omega, by omega⟩, h2⟩
    · rintro ⟨h1, h2, h3⟩; exact ⟨by omega, h3⟩

theorem keepFrom_subset (seen es : List (α × α)) : ∀ p ∈ keepFrom seen es, p ∈ es := by
  induction es generalizing seen with
  | nil => intro p hp; cases hp
  | cons e es ih =>
    intro p hp
    rw [keepFrom] at hp
    split at hp
    · exact List.mem_cons_of_mem _ (ih seen p hp)
    · rcases List.mem_cons.1 hp with rfl | hp
      · exact List.mem_cons_self
      · exact List.mem_cons_of_mem _ (ih _ p hp)

theorem keepFrom_covers (seen es : List (α × α)) : ∀ p ∈ es, (∃ q ∈ seen, SameEdge q p) ∨ ∃ q ∈ keepFrom seen es, SameEdge q p := by
  induction es generalizing seen with
  | nil => intro p hp; cases hp
  | cons e es ih =>
    intro p hp
    rw [keepFrom]
    by_cases hs : ∃ q ∈ seen, SameEdge q e
    · rw [if_pos hs]
      rcases List.mem_cons.1 hp with rfl | hp
      · exact Or.inl hs
      · exact ih seen p hp
    · rw [if_neg hs]
      rcases List.mem_cons.1 hp with rfl | hp
      · exact Or.inr ⟨p, List.mem_cons_self, Or.inl rfl⟩
      · rcases ih (e :: seen) p hp with ⟨q, hq, hqp⟩ | ⟨q, hq, hqp⟩
        · rcases List.mem_cons.1 hq with rfl | hq
          · exact Or.inr ⟨q, List.mem_cons_self, hqp⟩
          · exact Or.inl ⟨q, hq, hqp⟩
        · exact Or.inr ⟨q, List.mem_cons_of_mem _ hq, hqp⟩

theorem keepFirst_covers {es : List (α × α)} {p : α × α} (hp : p ∈ es) : ∃ q ∈ keepFirst es, SameEdge q p := by
  rcases keepFrom_covers [] es p hp with ⟨q, hq, -⟩ | h
  · cases hq
  · exact h

theorem graphOf_keepFirst_n (ne : List (Nat × Nat)) : (graphOf (keepFirst ne)).n = (graphOf ne).n := by
  have key : ∀ k, (graphOf (keepFirst ne)).n ≤ k ↔ (graphOf ne).n ≤ k := by
    intro k
    rw [graphOf, graphOf, graph_n_le, graph_n_le]
    refine and_congr_right fun _ => ⟨fun h p hp => ?_, fun h p hp => h p (keepFrom_subset _ _ p hp)⟩
    obtain ⟨q, hq, hqp⟩ := keepFirst_covers hp
    have := h q hq
    rcases hqp with rfl | rfl
    · exact this
    · exact this.symm
  exact Nat.le_antisymm ((key _).2 (Nat.le_refl _)) ((key _).1 (Nat.le_refl _))

theorem keepFrom_nbrs (u : Nat) (ne seen : List (Nat × Nat)) (S : List Nat) (hS : ∀ p ∈ seen, ∀ x ∈ Graph.nbrsOf u p, x ∈ S) :
    newFrom S ((keepFrom seen ne).flatMap (Graph.nbrsOf u)) = newFrom S (ne.flatMap (Graph.nbrsOf u)) := by
  induction ne generalizing seen S with
  | nil => rfl
  | cons e ne ih =>
    rw [keepFrom, List.flatMap_cons, newFrom_append]
    split
    · rename_i hs
      obtain ⟨p, hp, hpe⟩ := hs
      have hsub : ∀ x ∈ Graph.nbrsOf u e, x ∈ S := by
        intro x hx
        refine hS p hp x ?_
        rcases hpe with rfl | rfl
        · exact hx
        · simp only [Graph.nbrsOf, List.mem_append] at hx ⊢
          exact hx.symm
      rw [newFrom_known hsub, List.nil_append, ih seen S hS]
      refine newFrom_congr (fun x => ?_) _
      rw [List.mem_append]
      exact ⟨Or.inr, fun h => h.elim (hsub x) id⟩
    · rw [List.flatMap_cons, newFrom_append, ih (e :: seen)]
      intro p hp x hx
      rw [List.mem_append]
      rcases List.mem_cons.1 hp with rfl | hp
      · exact Or.inl hx
      · exact Or.inr (hS p hp x hx)

theorem joins_sameEdge {u v : Nat} {e f : Nat × Nat} (he : joins u v e = true) (hef : SameEdge f e) : joins u v f = true := by
  rcases hef with rfl | rfl
  · exact he
  · simp only [joins, Bool.or_eq_true, Bool.and_eq_true, beq_iff_eq] at he ⊢
    tauto

theorem edgeIdx_isSome_keepFirst (ne : List (Nat × Nat)) (u v : Nat) :
    ((graphOf (keepFirst ne)).edgeIdx u v).isSome = ((graphOf ne).edgeIdx u v).isSome := by
  rw [Graph.edgeIdx, Graph.edgeIdx, graphOf_edges, graphOf_edges, Bool.eq_iff_iff, List.findIdx?_isSome, List.findIdx?_isSome, List.any_eq_true, List.any_eq_true]
  constructor
  · rintro ⟨e, he, hj⟩; exact ⟨e, keepFrom_subset _ _ e he, hj⟩
  · rintro ⟨e, he, hj⟩
    obtain ⟨f, hf, hfe⟩ := keepFirst_covers he
    exact ⟨f, hf, joins_sameEdge hj hfe⟩

theorem edgeIdx_eq_of_same {g : Graph} {a b u v i : Nat} (h : g.edgeIdx a b = some i) :
    g.edgeIdx u v = some i ↔ SameEdge (u, v) (a, b) := by
  constructor
  · intro h2
    rw [Graph.edgeIdx] at h h2
    obtain ⟨h1, k1, -⟩ := List.findIdx?_eq_some_iff_getElem.1 h
    obtain ⟨_, k2, -⟩ := List.findIdx?_eq_some_iff_getElem.1 h2
    simp only [joins, Bool.or_eq_true, Bool.and_eq_true, beq_iff_eq] at k1 k2
    rw [SameEdge, Prod.mk.injEq, Prod.mk.injEq]
    omega
  · intro h2
    rw [← h]
    rcases h2 with h2 | h2 <;> cases h2
    · rfl
    · have hj : joins b a = joins a b := by
        funext e
        rw [joins, joins, Bool.or_comm]
      rw [Graph.edgeIdx, Graph.edgeIdx, hj]

/-- Both graphs after an assignment to the edge between `a` and `b`. -/
theorem SameCosts.upd {g h : Graph} {cost cost' : Nat → Int} (H : SameCosts g cost h cost') {a b i j : Nat} (hi : g.edgeIdx a b = some i)
    (hj : h.edgeIdx a b = some j) (c : Int) : SameCosts g (upd cost i c) h (upd cost' j c) := by
  refine ⟨H.wf, H.wf', H.n, fun u v => ?_⟩
  have hc := H.cost u v
  cases h1 : h.edgeIdx u v with
  | none =>
    rw [h1] at hc
    cases h2 : g.edgeIdx u v with
    | none => rfl
    | some e => rw [h2] at hc; cases hc
  | some e' =>
    rw [h1] at hc
    cases h2 : g.edgeIdx u v with
    | none => rw [h2] at hc; cases hc
    | some e =>
      rw [h2] at hc
      have hiff : e' = j ↔ e = i := by
        have k1 := edgeIdx_eq_of_same (u := u) (v := v) hj
        have k2 := edgeIdx_eq_of_same (u := u) (v := v) hi
        rw [h1, Option.some.injEq] at k1
        rw [h2, Option.some.injEq] at k2
        rw [k1, k2]
      simp only [Option.map_some, Option.some.injEq, Pctsp.upd] at hc ⊢
      by_cases he : e = i
      · rw [if_pos he, if_pos (hiff.2 he)]
      · rw [if_neg he, if_neg (fun h => he (hiff.1 h)), hc]

theorem sameLinks_keepFirst (ne : List (Nat × Nat)) : SameLinks (graphOf ne) (fun _ => 0) (graphOf (keepFirst ne)) (fun _ => 0) := by
  refine ⟨⟨graphOf_wf _, graphOf_wf _, graphOf_keepFirst_n ne, fun u v => ?_⟩, fun u => ?_⟩
  rotate_left
  · rw [Graph.adjacent, Graph.adjacent, graphOf_edges, graphOf_edges]
    exact keepFrom_nbrs u ne [] [] (by simp)
  · have := edgeIdx_isSome_keepFirst ne u v
    cases h1 : (graphOf (keepFirst ne)).edgeIdx u v <;> cases h2 : (graphOf ne).edgeIdx u v <;> rw [h1, h2] at this <;> simp at this <;> rfl

theorem SameCosts.fillCostMap {g h : Graph} {cost cost' : Nat → Int} (H : SameCosts g cost h cost') (b : Bimap α) (l : List ((α × α) × Int)) :
    (∃ x, fillCostMap h b l cost' = .ub x ∧ fillCostMap g b l cost = .ub x) ∨ (∃ x, fillCostMap h b l cost' = .throw x ∧ fillCostMap g b l cost = .throw x) ∨
      ∃ f' f, fillCostMap h b l cost' = .ok f' ∧ fillCostMap g b l cost = .ok f ∧ SameCosts g f h f' := by
  induction l generalizing cost cost' with
  | nil => exact Or.inr (Or.inr ⟨_, _, rfl, rfl, H⟩)
  | cons pc l ih =>
    obtain ⟨p, c⟩ := pc
    rw [Pctsp.fillCostMap, Pctsp.fillCostMap]
    cases getNewVertex b p.1 with
    | ub x => exact Or.inl ⟨x, rfl, rfl⟩
    | throw x => exact Or.inr (Or.inl ⟨x, rfl, rfl⟩)
    | ok s =>
      cases getNewVertex b p.2 with
      | ub x => exact Or.inl ⟨x, rfl, rfl⟩
      | throw x => exact Or.inr (Or.inl ⟨x, rfl, rfl⟩)
      | ok t =>
        simp only [Res.ok_bind]
        rcases H.edge s t with ⟨x, h1, h2⟩ | ⟨h1, h2⟩ | ⟨e', e, h1, h2, h3⟩
        · rw [h1, h2]; exact Or.inl ⟨x, rfl, rfl⟩
        · rw [h1, h2]; exact Or.inr (Or.inl ⟨_, rfl, rfl⟩)
        · rw [h1, h2]
          simp only [Res.ok_bind]
          have k1 : h.edgeIdx s t = some e' := by
            rw [Graph.edge] at h1; split at h1
            · exact Res.ok.inj h1
            · cases h1
          have k2 : g.edgeIdx s t = some e := by
            rw [Graph.edge] at h2; split at h2
            · exact Res.ok.inj h2
            · cases h2
          exact ih (H.upd k2 k1 c)

/-- What the bindings build from a list of edges and from the list without repetitions. -/
theorem prepare_keepFirst (es : List (α × α)) (tour : List α) (costs : List ((α × α) × Int)) (prizes : List (α × Int)) :
    (∃ x, prepare (keepFirst es) tour costs prizes = .ub x ∧ prepare es tour costs prizes = .ub x) ∨
      (∃ x, prepare (keepFirst es) tour costs prizes = .throw x ∧ prepare es tour costs prizes = .throw x) ∨
      ∃ q p, prepare (keepFirst es) tour costs prizes = .ok q ∧ prepare es tour costs prizes = .ok p ∧ q.lookup = p.lookup ∧ q.tour = p.tour ∧
        q.prize = p.prize ∧ SameLinks p.graph p.cost q.graph q.cost := by
  rw [prepare, prepare, renameEdges_keepFirst]
  obtain ⟨ne, b⟩ := renameEdges [] es
  simp only
  cases getNewVertices b tour with
  | ub x => exact Or.inl ⟨x, rfl, rfl⟩
  | throw x => exact Or.inr (Or.inl ⟨x, rfl, rfl⟩)
  | ok t =>
    simp only [Res.ok_bind]
    rcases (sameLinks_keepFirst ne).fillCostMap b costs with ⟨x, h1, h2⟩ | ⟨x, h1, h2⟩ | ⟨f', f, h1, h2, h3⟩
    · rw [h1, h2]; exact Or.inl ⟨x, rfl, rfl⟩
    · rw [h1, h2]; exact Or.inr (Or.inl ⟨x, rfl, rfl⟩)
    · rw [h1, h2]
      simp only [Res.ok_bind]
      cases fillVertexMap b prizes (fun _ => 0) with
      | ub x => exact Or.inl ⟨x, rfl, rfl⟩
      | throw x => exact Or.inr (Or.inl ⟨x, rfl, rfl⟩)
      | ok pr => exact Or.inr (Or.inr ⟨_, _, rfl, rfl, rfl, rfl, rfl, h3, (sameLinks_keepFirst ne).adj⟩)

/-- A binding without a root. -/
theorem prepare_bind_keepFirst {β : Type} (es : List (α × α)) (tour : List α) (costs : List ((α × α) × Int)) (prizes : List (α × Int))
    (k : Renamed α → Res β) (hk : ∀ q p : Renamed α, q.lookup = p.lookup → q.tour = p.tour → q.prize = p.prize →
      SameLinks p.graph p.cost q.graph q.cost → k q = k p) :
    (prepare (keepFirst es) tour costs prizes >>= k) = (prepare es tour costs prizes >>= k) := by
  rcases prepare_keepFirst es tour costs prizes with ⟨x, h1, h2⟩ | ⟨x, h1, h2⟩ | ⟨q, p, h1, h2, h3, h4, h5, h6⟩
  · rw [h1, h2]
  · rw [h1, h2]
  · rw [h1, h2]
    exact hk q p h3 h4 h5 h6

/-- A binding with a root. -/
theorem prepareRoot_bind_keepFirst {β : Type} (es : List (α × α)) (tour : List α) (costs : List ((α × α) × Int)) (prizes : List (α × Int)) (root : α)
    (k : Renamed α × Nat → Res β) (hk : ∀ (q p : Renamed α) (r : Nat), q.lookup = p.lookup → q.tour = p.tour → q.prize = p.prize →
      SameLinks p.graph p.cost q.graph q.cost → k (q, r) = k (p, r)) :
    (prepareRoot (keepFirst es) tour costs prizes root >>= k) = (prepareRoot es tour costs prizes root >>= k) := by
  rw [prepareRoot, prepareRoot, renameEdges_keepFirst]
  simp only
  cases getNewVertex (renameEdges [] es).2 root with
  | ub x => rfl
  | throw x => rfl
  | ok r =>
    simp only [Res.ok_bind]
    rcases prepare_keepFirst es tour costs prizes with ⟨x, h1, h2⟩ | ⟨x, h1, h2⟩ | ⟨q, p, h1, h2, h3, h4, h5, h6⟩
    · rw [h1, h2]
    · rw [h1, h2]
    · rw [h1, h2]
      exact hk q p r h3 h4 h5 h6

end Pctsp
