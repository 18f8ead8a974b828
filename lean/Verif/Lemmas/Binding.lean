import Verif.Model.Binding
import Verif.Lemmas.Renaming

/-! Helper lemmas: the bindings. -/

set_option linter.unusedSectionVars false

namespace Pctsp

variable {α : Type} [DecidableEq α]

theorem fillVertexMap_nonneg {b : Bimap α} {prizes : List (α × Int)} {f f' : Nat → Int} (h : fillVertexMap b prizes f = .ok f')
    (hp : ∀ x c, (x, c) ∈ prizes → 0 ≤ c) (hf : ∀ k, 0 ≤ f k) (k : Nat) : 0 ≤ f' k := by
  induction prizes generalizing f with
  | nil => cases h; exact hf k
  | cons p prizes ih =>
    obtain ⟨x, c⟩ := p
    rw [fillVertexMap] at h
    obtain ⟨v, -, h2⟩ := Res.bind_eq_ok.1 h
    refine ih h2 (fun x c hx => hp x c (by simp [hx])) (fun j => ?_)
    rw [upd]; split
    · exact hp x c (by simp)
    · exact hf j

/-- What `prepare` builds. -/
structure Prepared (es : List (α × α)) (w : α → α → Int) (π : α → Int) (tour : List α) (D : List α) (p : Renamed α) : Prop where
  nodup : D.Nodup
  mem : ∀ x, x ∈ D ↔ x ∈ endpoints es
  wf : p.graph.WF
  lookup : p.lookup = number 0 D
  named : List.Forall₂ (NameOf D) tour p.tour
  isTour : ∀ {t t' r r'}, List.Forall₂ (NameOf D) t t' → D[r']? = some r → (IsTour p.graph r' t' ↔ IsTourIn es r t)
  names : ∀ {t'}, IsWalk p.graph t' → t'.length ≠ 1 → ∃ t, List.Forall₂ (NameOf D) t t'
  cost : ∀ {t t'}, List.Forall₂ (NameOf D) t t' → IsWalk p.graph t' → walkCost p.graph p.cost t' = namedCost w t
  prize : ∀ {t t'}, List.Forall₂ (NameOf D) t t' → tourPrize p.prize t' = namedPrize π t
  lt : ∀ k x, D[k]? = some x → k < p.graph.n
  adj : ∀ {s t x y}, D[s]? = some x → D[t]? = some y → (Adj p.graph s t ↔ AdjIn es x y)
  prizeOf : ∀ k x, D[k]? = some x → p.prize k = π x
  nonneg : (∀ x, 0 ≤ π x) → ∀ k, 0 ≤ p.prize k
  costNonneg : (∀ x y, 0 ≤ w x y) → ∀ e < p.graph.edges.length, 0 ≤ p.cost e

theorem names_of_mem {D : List α} {es : List (α × α)} (hmem : ∀ x, x ∈ D ↔ x ∈ endpoints es) (l : List α)
    (hl : ∀ x ∈ l, x ∈ endpoints es) : ∃ ns, List.Forall₂ (NameOf D) l ns := by
  induction l with
  | nil => exact ⟨[], List.Forall₂.nil⟩
  | cons x l ih =>
    obtain ⟨ns, hns⟩ := ih (fun y hy => hl y (by simp [hy]))
    obtain ⟨k, hk⟩ := List.mem_iff_getElem?.1 ((hmem x).2 (hl x (by simp)))
    exact ⟨k :: ns, List.Forall₂.cons hk hns⟩

theorem prepare_spec {es : List (α × α)} {costs : List ((α × α) × Int)} {prizes : List (α × Int)} {w : α → α → Int} {π : α → Int}
    (h : Describes es costs prizes w π) {tour : List α} (ht : ∀ x ∈ tour, x ∈ endpoints es) :
    ∃ p, prepare es tour costs prizes = .ok p ∧ Prepared es w π tour (firstSeen es) p ∧ (renameEdges [] es).2 = p.lookup := by
  obtain ⟨ne, h1, h2⟩ := renameEdges_nil es
  have hD := firstSeen_nodup es
  obtain ⟨f, h3, h4⟩ := fillCostMap_spec hD h2 (mem_firstSeen es) h.distinct w h.symm costs (fun p c hp => (h.costOk p c hp).1)
    (fun p c hp => (h.costOk p c hp).2) (fun _ => 0)
  obtain ⟨q, h5, h6⟩ := fillVertexMap_spec hD π prizes (fun x c hp => (h.prizeOk x c hp).1)
    (fun x c hp => (mem_firstSeen es x).2 (h.prizeOk x c hp).2) (fun _ => 0)
  have hf : ∀ i e, es[i]? = some e → f i = w e.1 e.2 := by
    intro i e hi
    rcases h4 i e hi with h' | ⟨-, h'⟩
    · exact h'
    · obtain ⟨q, c, hq, hs⟩ := h.allCosts e (List.mem_of_getElem? hi)
      exact absurd hs (h' q c hq)
  have hpi : ∀ k x, (firstSeen es)[k]? = some x → q k = π x := by
    intro k x hk
    rcases h6 k x hk with h' | ⟨-, h'⟩
    · exact h'
    · obtain ⟨c, hx⟩ := h.allPrizes x ((mem_firstSeen es x).1 (List.mem_of_getElem? hk))
      exact absurd hx (h' c)
  obtain ⟨ns, hns⟩ := names_of_mem (mem_firstSeen es) tour ht
  have hnew : getNewVertices (number 0 (firstSeen es)) tour = .ok ns :=
    mapRes_forall₂ (List.Forall₂.imp (fun x k hk => (getNewVertex_number hD _ _).2 hk) hns)
  refine ⟨{ graph := graphOf ne, lookup := number 0 (firstSeen es), tour := ns, cost := f, prize := q }, ?_, ?_, ?_⟩
  · rw [prepare, h1]
    simp only [hnew, Res.ok_bind, h3, h5]
    rfl
  · exact {
      nodup := hD
      mem := mem_firstSeen es
      wf := graphOf_wf ne
      lookup := rfl
      named := hns
      isTour := fun h3 h4 => tour_transport hD h2 h3 h4
      names := fun h3 h4 => walk_named h2 h3 h4
      cost := fun h3 h4 => cost_transport hD h2 h.distinct h.symm hf h3 h4
      prize := fun h3 => prize_transport hpi h3
      lt := fun k x hk => lt_graphOf hD h2 (fun x => (mem_firstSeen es x).1) hk
      adj := fun h3 h4 => adj_graphOf hD h2 h3 h4
      prizeOf := hpi
      nonneg := fun hn => fillVertexMap_nonneg h5 (fun x c hx => by rw [(h.prizeOk x c hx).1]; exact hn x) (fun _ => Int.le_refl _)
      costNonneg := fun hn e he => by
        simp only [graphOf_edges] at he
        rw [← List.Forall₂.length_eq h2] at he
        show 0 ≤ f e
        rw [hf e es[e] (List.getElem?_eq_getElem he)]
        exact hn _ _ }
  · rw [h1]

/-- Mapping a tour back. -/
theorem Prepared.back {es : List (α × α)} {w : α → α → Int} {π : α → Int} {tour : List α} {D : List α} {p : Renamed α}
    (h : Prepared es w π tour D p) {r : α} {r' : Nat} (hr : D[r']? = some r) {t' : List Nat} (ht : IsTour p.graph r' t') :
    ∃ t, getOldVertices p.lookup t' = .ok t ∧ IsTourIn es r t ∧ namedCost w t = walkCost p.graph p.cost t' ∧
      namedPrize π t = tourPrize p.prize t' := by
  obtain ⟨t, h1⟩ := h.names ht.walk (by obtain ⟨m, hm⟩ := ht.shape; rw [hm]; simp)
  refine ⟨t, ?_, (h.isTour h1 hr).1 ht, (h.cost h1 ht.walk).symm, (h.prize h1).symm⟩
  rw [h.lookup]
  exact mapRes_forall₂ (List.Forall₂.imp (fun k x hk => (getOldVertex_number _ _ _).2 hk) h1.flip)

theorem IsTourIn.mem_endpoints {es : List (α × α)} {r : α} {t : List α} (h : IsTourIn es r t) : ∀ x ∈ t, x ∈ endpoints es := by
  obtain ⟨⟨m, hm⟩, -, hw⟩ := h
  have end1 : ∀ x y, AdjIn es x y → x ∈ endpoints es ∧ y ∈ endpoints es := by
    intro x y hxy
    simp only [endpoints, List.mem_flatMap]
    rcases hxy with h | h
    · exact ⟨⟨_, h, by simp⟩, ⟨_, h, by simp⟩⟩
    · exact ⟨⟨_, h, by simp⟩, ⟨_, h, by simp⟩⟩
  have gen : ∀ (x y : α) (l : List α), (∀ p ∈ consec (x :: y :: l), AdjIn es p.1 p.2) → ∀ z ∈ x :: y :: l, z ∈ endpoints es := by
    intro x y l
    induction l generalizing x y with
    | nil =>
      intro hw z hz
      have := end1 x y (hw (x, y) (by simp [consec]))
      simp at hz
      rcases hz with rfl | rfl
      · exact this.1
      · exact this.2
    | cons a l ih =>
      intro hw z hz
      have := end1 x y (hw (x, y) (by simp [consec]))
      rw [List.mem_cons] at hz
      rcases hz with rfl | hz
      · exact this.1
      · exact ih y a (fun p hp => hw p (by
          simp only [consec, List.tail_cons, List.zip_cons_cons, List.mem_cons] at hp ⊢
          right; exact hp)) z hz
  cases m with
  | nil => rw [List.nil_append] at hm; subst hm; exact gen r r [] hw
  | cons a m => rw [List.cons_append] at hm; subst hm; exact gen r a _ hw

theorem prepareRoot_spec {es : List (α × α)} {costs : List ((α × α) × Int)} {prizes : List (α × Int)} {w : α → α → Int} {π : α → Int}
    (h : Describes es costs prizes w π) {tour : List α} {r : α} (ht : IsTourIn es r tour) :
    ∃ p r', prepareRoot es tour costs prizes r = .ok (p, r') ∧ prepare es tour costs prizes = .ok p ∧
      Prepared es w π tour (firstSeen es) p ∧ (firstSeen es)[r']? = some r ∧
      IsTour p.graph r' p.tour := by
  obtain ⟨p, h1, h2, h3⟩ := prepare_spec h ht.mem_endpoints
  have hr : r ∈ endpoints es := ht.mem_endpoints r (by obtain ⟨m, hm⟩ := ht.shape; rw [hm]; simp)
  obtain ⟨k, hk⟩ := List.mem_iff_getElem?.1 ((mem_firstSeen es r).2 hr)
  refine ⟨p, k, ?_, h1, h2, hk, (h2.isTour h2.named hk).2 ht⟩
  rw [prepareRoot, h1]
  have : getNewVertex (renameEdges [] es).2 r = .ok k := by
    rw [h3, h2.lookup]; exact (getNewVertex_number h2.nodup _ _).2 hk
  simp only [this, Res.ok_bind]
  rfl

theorem fillCostMap_ok {es : List (α × α)} {ne : List (Nat × Nat)} {b : Bimap α} (he : renameEdges [] es = (ne, b))
    (costs : List ((α × α) × Int)) (hin : ∀ p c, (p, c) ∈ costs → AdjIn es p.1 p.2) (f : Nat → Int) :
    ∃ f', fillCostMap (graphOf ne) b costs f = .ok f' := by
  obtain ⟨ne', h1, h2⟩ := renameEdges_nil es
  rw [he] at h1; cases h1
  have hD := firstSeen_nodup es
  have known : ∀ x y, AdjIn es x y → x ∈ endpoints es ∧ y ∈ endpoints es := by
    intro x y hxy
    simp only [endpoints, List.mem_flatMap]
    rcases hxy with h | h
    · exact ⟨⟨_, h, by simp⟩, ⟨_, h, by simp⟩⟩
    · exact ⟨⟨_, h, by simp⟩, ⟨_, h, by simp⟩⟩
  induction costs generalizing f with
  | nil => exact ⟨f, rfl⟩
  | cons pc costs ih =>
    obtain ⟨⟨x, y⟩, c⟩ := pc
    have ha := hin (x, y) c (by simp)
    obtain ⟨k1, k2⟩ := known x y ha
    obtain ⟨s, hs⟩ := List.mem_iff_getElem?.1 ((mem_firstSeen es x).2 k1)
    obtain ⟨t, ht⟩ := List.mem_iff_getElem?.1 ((mem_firstSeen es y).2 k2)
    have hadj := (adj_graphOf hD h2 hs ht).2 ha
    rw [fillCostMap, (getNewVertex_number hD x s).2 hs, Res.ok_bind, (getNewVertex_number hD y t).2 ht, Res.ok_bind, Graph.edge,
      if_pos (lt_graphOf hD h2 (fun x => (mem_firstSeen es x).1) hs)]
    cases hi : (graphOf ne).edgeIdx s t with
    | none =>
      exfalso
      rw [Graph.edgeIdx, List.findIdx?_eq_none_iff] at hi
      rcases hadj with h | h
      · have := hi _ h; simp [joins] at this
      · have := hi _ h; simp [joins] at this
    | some i => exact ih (fun p c hp => hin p c (by simp [hp])) _

theorem mapRes_isUb {β γ : Type} {f : β → Res γ} {l : List β} {x : β} (hx : x ∈ l) (hu : (f x).isUb = true)
    (hall : ∀ y ∈ l, (f y).isUb = true ∨ (f y).isOk = true) : (mapRes f l).isUb = true := by
  induction l with
  | nil => simp at hx
  | cons y l ih =>
    rw [mapRes]
    cases hy : f y with
    | ub s => rfl
    | throw e => have := hall y (by simp); rw [hy] at this; simp [Res.isUb, Res.isOk] at this
    | ok z =>
      have hxl : x ∈ l := by
        rcases List.mem_cons.1 hx with rfl | h
        · rw [hy] at hu; simp [Res.isUb] at hu
        · exact h
      have := ih hxl (fun y h => hall y (by simp [h]))
      rw [Res.ok_bind]
      cases hm : mapRes f l with
      | ub s => rfl
      | throw e => rw [hm] at this; simp [Res.isUb] at this
      | ok e => rw [hm] at this; simp [Res.isUb] at this

theorem Res.isUb_bind {β γ : Type} {x : Res β} (h : x.isUb = true) (f : β → Res γ) : (x >>= f).isUb = true := by
  cases x with
  | ub s => rfl
  | ok a => simp [Res.isUb] at h
  | throw e => simp [Res.isUb] at h

theorem getNewVertex_isUb_or_isOk (b : Bimap α) (y : α) : (getNewVertex b y).isUb = true ∨ (getNewVertex b y).isOk = true := by
  rw [getNewVertex]
  cases b.find? (fun p => decide (p.2 = y)) with
  | none => left; rfl
  | some p => right; rfl

theorem getNewVertex_unknown {es : List (α × α)} {x : α} (hx : x ∉ endpoints es) :
    (getNewVertex (renameEdges [] es).2 x).isUb = true := by
  obtain ⟨ne, h1, -⟩ := renameEdges_nil es
  rw [h1]
  exact getNewVertex_number_isUb (firstSeen_nodup es) (by rwa [mem_firstSeen])

theorem prepare_unknown {es : List (α × α)} {x : α} (hx : x ∉ endpoints es) {t : List α} (ht : x ∈ t) (costs : List ((α × α) × Int))
    (prizes : List (α × Int)) : (prepare es t costs prizes).isUb = true := by
  rw [prepare]
  exact Res.isUb_bind (mapRes_isUb ht (getNewVertex_unknown hx) (fun y _ => getNewVertex_isUb_or_isOk _ y)) _

theorem prepareRoot_unknown {es : List (α × α)} {x : α} (hx : x ∉ endpoints es) {t : List α} {r : α} (ht : x = r ∨ x ∈ t)
    (costs : List ((α × α) × Int)) (prizes : List (α × Int)) : (prepareRoot es t costs prizes r).isUb = true := by
  rw [prepareRoot]
  by_cases hr : x = r
  · subst hr
    exact Res.isUb_bind (getNewVertex_unknown hx) _
  · rcases getNewVertex_isUb_or_isOk (renameEdges [] es).2 r with h | h
    · exact Res.isUb_bind h _
    · cases hg : getNewVertex (renameEdges [] es).2 r with
      | ub s => rw [hg] at h; simp [Res.isOk] at h
      | throw s => rw [hg] at h; simp [Res.isOk] at h
      | ok k =>
        simp only [hg, Res.ok_bind]
        exact Res.isUb_bind (prepare_unknown hx (ht.resolve_left hr) costs prizes) _

theorem prepare_unknown_prize {es : List (α × α)} {x : α} (hx : x ∉ endpoints es) {t : List α} (ht : ∀ y ∈ t, y ∈ endpoints es)
    {costs : List ((α × α) × Int)} (hin : ∀ p c, (p, c) ∈ costs → AdjIn es p.1 p.2) {prizes : List (α × Int)} {c : Int}
    (hp : (x, c) ∈ prizes) : (prepare es t costs prizes).isUb = true := by
  obtain ⟨ne, h1, -⟩ := renameEdges_nil es
  have hD := firstSeen_nodup es
  obtain ⟨ns, hns⟩ := names_of_mem (mem_firstSeen es) t ht
  have hnew : getNewVertices (number 0 (firstSeen es)) t = .ok ns :=
    mapRes_forall₂ (List.Forall₂.imp (fun x k hk => (getNewVertex_number hD _ _).2 hk) hns)
  obtain ⟨f, hf⟩ := fillCostMap_ok h1 costs hin (fun _ => 0)
  rw [prepare, h1]
  simp only [hnew, Res.ok_bind, hf]
  exact Res.isUb_bind (fillVertexMap_unknown hD prizes _ hp (by rwa [mem_firstSeen])) _

theorem prepareRoot_unknown_prize {es : List (α × α)} {x : α} (hx : x ∉ endpoints es) {t : List α} (ht : ∀ y ∈ t, y ∈ endpoints es)
    {costs : List ((α × α) × Int)} (hin : ∀ p c, (p, c) ∈ costs → AdjIn es p.1 p.2) {prizes : List (α × Int)} {c : Int}
    (hp : (x, c) ∈ prizes) (r : α) : (prepareRoot es t costs prizes r).isUb = true := by
  rw [prepareRoot]
  rcases getNewVertex_isUb_or_isOk (renameEdges [] es).2 r with h | h
  · exact Res.isUb_bind h _
  · cases hg : getNewVertex (renameEdges [] es).2 r with
    | ub s => rw [hg] at h; simp [Res.isOk] at h
    | throw s => rw [hg] at h; simp [Res.isOk] at h
    | ok k =>
      simp only [hg, Res.ok_bind]
      exact Res.isUb_bind (prepare_unknown_prize hx ht hin hp) _

theorem fillCostMap_untouched {es : List (α × α)} {ne : List (Nat × Nat)} {D : List α} (hD : D.Nodup)
    (h : List.Forall₂ (Names D) es ne) (costs : List ((α × α) × Int)) (f f' : Nat → Int)
    (hf : fillCostMap (graphOf ne) (number 0 D) costs f = .ok f') (i : Nat) (e : α × α) (hi : es[i]? = some e)
    (hno : ∀ q c, (q, c) ∈ costs → ¬ SameEdge q e) : f' i = f i := by
  induction costs generalizing f with
  | nil => cases hf; rfl
  | cons pc costs ih =>
    obtain ⟨⟨x, y⟩, c⟩ := pc
    rw [fillCostMap] at hf
    obtain ⟨s, e1, hf⟩ := Res.bind_eq_ok.1 hf
    obtain ⟨t, e2, hf⟩ := Res.bind_eq_ok.1 hf
    obtain ⟨o, e3, hf⟩ := Res.bind_eq_ok.1 hf
    cases o with
    | none => cases hf
    | some j =>
      rw [ih _ hf (fun q c hq => hno q c (by simp [hq])), upd, if_neg]
      rintro rfl
      rw [Graph.edge] at e3
      split at e3
      · injection e3 with e3
        rw [Graph.edgeIdx, List.findIdx?_eq_some_iff_getElem] at e3
        obtain ⟨hlt, hj, -⟩ := e3
        obtain ⟨e', he', hn⟩ := (forall₂_getElem? h).1 e hi
        rw [graphOf_edges] at hlt
        simp only [graphOf_edges] at hj
        obtain ⟨_, heq⟩ := List.getElem?_eq_some_iff.1 he'
        rw [heq] at hj
        exact hno (x, y) c (by simp)
          ((joins_iff_sameEdge hD hn ((getNewVertex_number hD x s).1 e1) ((getNewVertex_number hD y t).1 e2)).1 hj)
      · cases e3

end Pctsp
