import Verif.Lemmas.Binding
import Verif.Props.Extension
import Verif.Props.Gain
import Verif.Props.Collapse
import Verif.Props.Compose

/-!
# Properties C52-C54: the Python bindings of the heuristics
-/

set_option linter.unusedSectionVars false

namespace Pctsp

variable {α : Type} [DecidableEq α] {F : Type}

theorem getOldVertices_length {b : Bimap α} {vs : List Nat} {t : List α} (h : getOldVertices b vs = .ok t) : t.length = vs.length :=
  (mapRes_eq_ok.1 h).length_eq.symm

/-- **C52**, `path_extension_bind`. -/
theorem C52_path_extension (O : FloatOps F) (hO : O.SignSound) (es : List (α × α)) (costs : List ((α × α) × Int))
    (prizes : List (α × Int)) (w : α → α → Int) (π : α → Int) (h : Describes es costs prizes w π) (hp : ∀ x, 0 ≤ π x)
    (r : α) (t : List α) (ht : IsTourIn es r t) (step depth : Int) (hs : 1 ≤ step) :
    ∃ t', pathExtensionBind O es t costs prizes r step depth = .ok t' ∧ IsTourIn es r t' ∧ namedPrize π t ≤ namedPrize π t' ∧
      (4 ≤ t.length → 4 ≤ t'.length) := by
  obtain ⟨p, r', h1, -, h2, h3, h4⟩ := prepareRoot_spec h ht
  obtain ⟨s, q1, q2, q3, q4⟩ := C12_path_extension_tour O hO p.graph h2.wf r' p.tour h4 p.cost p.prize (h2.nonneg hp) step depth hs
  obtain ⟨t', b1, b2, b3, b4⟩ := h2.back h3 q2
  refine ⟨t', ?_, b2, ?_, fun hl => ?_⟩
  · rw [pathExtensionBind, h1]
    simp only [Res.ok_bind, q1, b1]
  · rw [b4, ← h2.prize h2.named]; exact q3
  · rw [getOldVertices_length b1]
    by_cases he : s = p.tour
    · rw [he, ← h2.named.length_eq]; exact hl
    · exact (q4 he).2

/-- **C52**, `path_extension_until_prize_feasible_bind`; here the prizes may be negative. -/
theorem C52_path_extension_until (O : FloatOps F) (hO : O.SignSound) (es : List (α × α)) (costs : List ((α × α) × Int))
    (prizes : List (α × Int)) (w : α → α → Int) (π : α → Int) (h : Describes es costs prizes w π)
    (r : α) (t : List α) (ht : IsTourIn es r t) (quota step depth : Int) (hs : 1 ≤ step) :
    ∃ t', pathExtensionUntilPrizeFeasibleBind O es t costs prizes r quota step depth = .ok t' ∧ IsTourIn es r t' ∧
      namedPrize π t ≤ namedPrize π t' ∧ (quota ≤ namedPrize π t → t' = t) ∧ (4 ≤ t.length → 4 ≤ t'.length) := by
  obtain ⟨p, r', h1, -, h2, h3, h4⟩ := prepareRoot_spec h ht
  obtain ⟨s, q1, q2, q3, q4⟩ := C15_until_feasible_tour O hO p.graph h2.wf r' p.tour h4 p.cost p.prize quota step depth hs
  obtain ⟨t', b1, b2, b3, b4⟩ := h2.back h3 q2
  refine ⟨t', ?_, b2, ?_, ?_, fun hl => ?_⟩
  rotate_right
  · rw [getOldVertices_length b1]
    by_cases he : s = p.tour
    · rw [he, ← h2.named.length_eq]; exact hl
    · exact (q4 he).2
  · rw [pathExtensionUntilPrizeFeasibleBind, h1]
    simp only [Res.ok_bind, q1, b1]
  · rw [b4, ← h2.prize h2.named]; exact q3
  · intro hq
    rw [← h2.prize h2.named] at hq
    have e := C16_feasible_untouched O p.graph p.tour h4.ne_nil p.cost p.prize r' quota step depth hq
    rw [e] at q1; cases q1
    have : getOldVertices p.lookup p.tour = .ok t := by
      rw [h2.lookup]
      exact mapRes_forall₂ (List.Forall₂.imp (fun k x hk => (getOldVertex_number _ _ _).2 hk) h2.named.flip)
    rw [this] at b1; cases b1; rfl

/-- **C52**, `extension_unitary_gain_bind` and `extension_until_prize_feasible_bind`. -/
theorem C52_extension_gain (O : FloatOps F) (hO : O.Strict) (hD : O.DivSign) (es : List (α × α)) (costs : List ((α × α) × Int))
    (prizes : List (α × Int)) (w : α → α → Int) (π : α → Int) (h : Describes es costs prizes w π) (hp : ∀ x, 0 ≤ π x)
    (r : α) (t : List α) (ht : IsTourIn es r t) (quota : Int) :
    (∃ t', extensionUnitaryGainBind O es t costs prizes = .ok t' ∧ IsTourIn es r t' ∧ namedPrize π t ≤ namedPrize π t' ∧
      namedCost w t ≤ namedCost w t' ∧ t.length ≤ t'.length) ∧
    (∃ t', extensionUntilPrizeFeasibleBind O es t costs prizes quota = .ok t' ∧ IsTourIn es r t' ∧ namedPrize π t ≤ namedPrize π t' ∧
      namedCost w t ≤ namedCost w t' ∧ t.length ≤ t'.length) := by
  obtain ⟨p, r', -, h1, h2, h3, h4⟩ := prepareRoot_spec h ht
  have hlt : ∀ x ∈ p.tour, x < p.graph.n := by
    intro k hk
    obtain ⟨i, hi⟩ := List.mem_iff_getElem?.1 hk
    obtain ⟨x, -, hx⟩ := (forall₂_getElem? h2.named).2 k hi
    exact h2.lt k x hx
  have mono : ∀ {P : List Nat → Nat → Nat → Nat → Prop} {s s' : List Nat}, GainSteps p.graph P s s' → IsTour p.graph r' s →
      IsTour p.graph r' s' ∧ tourPrize p.prize s ≤ tourPrize p.prize s' := by
    intro P s s' hsteps
    induction hsteps with
    | refl s => intro hs; exact ⟨hs, Int.le_refl _⟩
    | @step s s1 s' v a b _ hi _ ih =>
      intro hs
      have hst : GainStep p.graph v s s1 := ⟨a, b, hi⟩
      obtain ⟨e1, e2⟩ := ih (hst.isTour hs)
      refine ⟨e1, ?_⟩
      have := hst.tourPrize p.prize
      have := h2.nonneg hp v
      omega
  obtain ⟨⟨s1, c1, c2⟩, ⟨s2, d1, d2⟩⟩ := C49_gain_never_cheaper O hO hD p.graph p.cost p.prize (h2.nonneg hp) p.tour h4.ne_nil hlt h4.walk quota
  constructor
  · obtain ⟨s, q1, -, q3⟩ := C17_gain_only_inserts O hO p.graph p.cost p.prize p.tour h4.ne_nil hlt h4.walk
    rw [q1] at c1; cases c1
    obtain ⟨e1, e2⟩ := mono q3 h4
    obtain ⟨t', b1, b2, b3, b4⟩ := h2.back h3 e1
    refine ⟨t', ?_, b2, by rw [b4, ← h2.prize h2.named]; exact e2, by rw [b3, ← h2.cost h2.named h4.walk]; exact c2, ?_⟩
    rotate_left
    · rw [getOldVertices_length b1, h2.named.length_eq]; exact q3.onlyInserts.sub.length_le
    rw [extensionUnitaryGainBind, h1]
    simp only [Res.ok_bind, q1, b1]
  · obtain ⟨s, q1, -, q3⟩ := C17_until_feasible_only_inserts O hO p.graph p.cost p.prize quota p.tour h4.ne_nil hlt h4.walk
    rw [q1] at d1; cases d1
    obtain ⟨e1, e2⟩ := mono q3 h4
    obtain ⟨t', b1, b2, b3, b4⟩ := h2.back h3 e1
    refine ⟨t', ?_, b2, by rw [b4, ← h2.prize h2.named]; exact e2, by rw [b3, ← h2.cost h2.named h4.walk]; exact d2, ?_⟩
    rotate_left
    · rw [getOldVertices_length b1, h2.named.length_eq]; exact q3.onlyInserts.sub.length_le
    rw [extensionUntilPrizeFeasibleBind, h1]
    simp only [Res.ok_bind, q1, b1]

/-- **C52**, `collapse_bind`. -/
theorem C52_collapse (es : List (α × α)) (costs : List ((α × α) × Int))
    (prizes : List (α × Int)) (w : α → α → Int) (π : α → Int) (h : Describes es costs prizes w π) (hp : ∀ x, 0 ≤ π x)
    (r : α) (t : List α) (ht : IsTourIn es r t) (quota : Int) (useShortest : Bool) (hw : useShortest = true → ∀ x y, 0 ≤ w x y)
    (pick : Nat → Pick) (hpick : ∀ i, (pick i).Heap) :
    ∃ t', collapseBind es t costs prizes quota r useShortest pick = .ok t' ∧ IsTourIn es r t' ∧ namedCost w t' ≤ namedCost w t ∧
      (quota ≤ namedPrize π t → quota ≤ namedPrize π t') ∧ (4 ≤ t.length → 4 ≤ t'.length) := by
  obtain ⟨p, r', h1, -, h2, h3, h4⟩ := prepareRoot_spec h ht
  have hr : r' ∈ p.tour := by obtain ⟨m, hm⟩ := h4.shape; rw [hm]; simp
  obtain ⟨s, q1, q2, q3, -, q4⟩ := C21_collapse_tour p.graph h2.wf r' p.tour h4 r' hr p.cost p.prize (h2.nonneg hp) quota useShortest
    (fun e => h2.costNonneg (hw e)) pick hpick
  obtain ⟨t', b1, b2, b3, b4⟩ := h2.back h3 q2
  refine ⟨t', ?_, b2, ?_, ?_, fun hl => by rw [getOldVertices_length b1]; exact q4 (by rw [← h2.named.length_eq]; exact hl)⟩
  · rw [collapseBind, h1]
    simp only [Res.ok_bind, q1, b1]
  · rw [b3, ← h2.cost h2.named h4.walk]; exact q3
  · rw [b4, ← h2.prize h2.named]
    exact C22_collapse_stays_feasible p.graph h2.wf r' p.tour h4 r' hr p.cost p.prize quota useShortest pick hpick s q1

/-- **C52**, `path_extension_collapse_bind`. -/
theorem C52_path_extension_collapse (O : FloatOps F) (hO : O.SignSound) (es : List (α × α)) (costs : List ((α × α) × Int))
    (prizes : List (α × Int)) (w : α → α → Int) (π : α → Int) (h : Describes es costs prizes w π) (hp : ∀ x, 0 ≤ π x)
    (r : α) (t : List α) (ht : IsTourIn es r t) (quota : Int) (useShortest : Bool) (hw : useShortest = true → ∀ x y, 0 ≤ w x y)
    (pick0 : Nat → Pick) (pick : Nat → Nat → Pick) (hpick0 : ∀ i, (pick0 i).Heap) (hpick : ∀ j i, (pick j i).Heap) (depth step : Int) :
    ∃ t', pathExtensionCollapseBind O es t costs prizes r quota useShortest pick0 pick depth step = .ok t' ∧
      (t' = [] ∧ namedPrize π t < quota ∨
       IsTourIn es r t' ∧ quota ≤ namedPrize π t' ∧ (quota ≤ namedPrize π t → namedCost w t' ≤ namedCost w t) ∧
         (4 ≤ t.length → 4 ≤ t'.length)) := by
  obtain ⟨p, r', h1, -, h2, h3, h4⟩ := prepareRoot_spec h ht
  have hc : useShortest = true → ∀ e < p.graph.edges.length, 0 ≤ p.cost e := fun e => h2.costNonneg (hw e)
  obtain ⟨s, q1, q2⟩ := C23_nothing_or_feasible O hO p.graph h2.wf r' p.tour h4 p.cost p.prize (h2.nonneg hp) quota useShortest hc
    pick0 pick hpick0 hpick depth step
  have hbind : pathExtensionCollapseBind O es t costs prizes r quota useShortest pick0 pick depth step = getOldVertices p.lookup s := by
    rw [pathExtensionCollapseBind, h1]
    simp only [Res.ok_bind, q1]
  rw [hbind]
  rcases q2 with ⟨rfl, q2⟩ | ⟨q2, q3, q4⟩
  · refine ⟨[], rfl, Or.inl ⟨rfl, ?_⟩⟩
    rw [← h2.prize h2.named]; exact q2
  · obtain ⟨t', b1, b2, b3, b4⟩ := h2.back h3 q2
    refine ⟨t', b1, Or.inr ⟨b2, by rw [b4]; exact q3, fun hq => ?_, fun hl => ?_⟩⟩
    rotate_left
    · rw [getOldVertices_length b1]
      rcases q4 with he | he
      · rw [he, ← h2.named.length_eq]; exact hl
      · exact he
    rw [← h2.prize h2.named] at hq
    obtain ⟨s', e1, -, -, e4⟩ := C24_never_worse O hO p.graph h2.wf r' p.tour h4 p.cost p.prize (h2.nonneg hp) quota hq useShortest hc
      pick0 pick hpick0 hpick depth step
    rw [q1] at e1; cases e1
    rw [b3, ← h2.cost h2.named h4.walk]; exact e4

/-- A square with a chord vertex, in the caller's names. -/
def namedEdges : List (String × String) := [("c", "a"), ("a", "b"), ("b", "c"), ("d", "c"), ("d", "a")]
def namedCosts : List ((String × String) × Int) := [(("a", "c"), 1), (("a", "b"), 1), (("b", "c"), 1), (("c", "d"), 1), (("d", "a"), 1)]
def namedPrizes : List (String × Int) := [("a", 1), ("b", 1), ("c", 1), ("d", 1)]

theorem named_describes : Describes namedEdges namedCosts namedPrizes (fun _ _ => 1) (fun _ => 1) where
  distinct := by decide +kernel
  symm := fun _ _ => rfl
  costOk := by
    have : ∀ q ∈ namedCosts, q.2 = 1 ∧ AdjIn namedEdges q.1.1 q.1.2 := by decide +kernel
    exact fun p c h => this (p, c) h
  allCosts := by
    have : ∀ e ∈ namedEdges, ∃ q ∈ namedCosts, SameEdge q.1 e := by decide +kernel
    intro e he
    obtain ⟨q, h1, h2⟩ := this e he
    exact ⟨q.1, q.2, h1, h2⟩
  prizeOk := by
    have : ∀ q ∈ namedPrizes, q.2 = 1 ∧ q.1 ∈ endpoints namedEdges := by decide +kernel
    exact fun p c h => this (p, c) h
  allPrizes := by
    have : ∀ e ∈ endpoints namedEdges, ∃ q ∈ namedPrizes, q.1 = e := by decide +kernel
    intro e he
    obtain ⟨q, h1, h2⟩ := this e he
    exact ⟨q.2, h2 ▸ h1⟩

theorem named_tour : IsTourIn namedEdges "a" ["a", "b", "c", "a"] := ⟨⟨["b", "c"], rfl⟩, by decide +kernel, by decide +kernel⟩
example := C52_path_extension FloatOps.exact FloatOps.exact_lawful.signSound namedEdges namedCosts namedPrizes _ _ named_describes
  (fun _ => by decide) "a" _ named_tour 1 2 (by decide)
example := C52_path_extension_until FloatOps.exact FloatOps.exact_lawful.signSound namedEdges namedCosts namedPrizes _ _ named_describes
  "a" _ named_tour 4 1 2 (by decide)
example := C52_extension_gain FloatOps.ieeeExact FloatOps.ieeeExact_strict FloatOps.ieeeExact_divSign namedEdges namedCosts namedPrizes _ _
  named_describes (fun _ => by decide) "a" _ named_tour 4
example := C52_collapse namedEdges namedCosts namedPrizes _ _ named_describes (fun _ => by decide) "a" _ named_tour 3 true
  (fun _ _ _ => by decide) (fun _ => exPick) (fun _ => exPick_heap)
example := C52_path_extension_collapse FloatOps.exact FloatOps.exact_lawful.signSound namedEdges namedCosts namedPrizes _ _ named_describes
  (fun _ => by decide) "a" _ named_tour 4 true (fun _ _ _ => by decide) (fun _ => exPick) (fun _ _ => exPick) (fun _ => exPick_heap)
  (fun _ _ => exPick_heap) 2 1

example : IsTourIn namedEdges "a" ["a", "b", "c", "a"] := ⟨⟨["b", "c"], rfl⟩, by decide +kernel, by decide +kernel⟩
example : pathExtensionBind FloatOps.exact namedEdges ["a", "b", "c", "a"] namedCosts namedPrizes "a" 1 2 = .ok ["a", "b", "c", "d", "a"] := by
  decide +kernel
example : collapseBind namedEdges ["a", "b", "c", "d", "a"] namedCosts namedPrizes 3 "a" false (fun _ => exPick) =
    .ok ["a", "b", "c", "a"] := by
  decide +kernel

/-- **C53.** A vertex without incident edge as the root or in the tour: every binding is undefined, whatever the dictionaries are. -/
theorem C53_unknown_vertex (O : FloatOps F) (es : List (α × α)) (costs : List ((α × α) × Int)) (prizes : List (α × Int)) (t : List α)
    (r x : α) (hx : x ∉ endpoints es) (quota step depth : Int) (useShortest : Bool) (pick : Nat → Pick) (pick2 : Nat → Nat → Pick) :
    (x = r ∨ x ∈ t →
      (collapseBind es t costs prizes quota r useShortest pick).isUb = true ∧
      (pathExtensionBind O es t costs prizes r step depth).isUb = true ∧
      (pathExtensionUntilPrizeFeasibleBind O es t costs prizes r quota step depth).isUb = true ∧
      (pathExtensionCollapseBind O es t costs prizes r quota useShortest pick pick2 depth step).isUb = true) ∧
    (x ∈ t →
      (extensionUnitaryGainBind O es t costs prizes).isUb = true ∧
      (extensionUntilPrizeFeasibleBind O es t costs prizes quota).isUb = true) := by
  refine ⟨fun h => ?_, fun h => ?_⟩
  · have := prepareRoot_unknown hx h costs prizes
    exact ⟨Res.isUb_bind this _, Res.isUb_bind this _, Res.isUb_bind this _, Res.isUb_bind this _⟩
  · have := prepare_unknown hx h costs prizes
    exact ⟨Res.isUb_bind this _, Res.isUb_bind this _⟩

example := C53_unknown_vertex FloatOps.exact namedEdges namedCosts (("e", 7) :: namedPrizes) ["a", "e", "a"] "a" "e" (by decide +kernel) 3 1 2 true
  (fun _ => exPick) (fun _ _ => exPick)

/-- **C53.** A prize for a vertex without incident edge: every binding is undefined even if all other arguments are in order. -/
theorem C53_unknown_prize (O : FloatOps F) (es : List (α × α)) (costs : List ((α × α) × Int)) (prizes : List (α × Int)) (t : List α)
    (r x : α) (c : Int) (hx : x ∉ endpoints es) (hp : (x, c) ∈ prizes) (ht : ∀ y ∈ t, y ∈ endpoints es)
    (hin : ∀ p c, (p, c) ∈ costs → AdjIn es p.1 p.2) (quota step depth : Int) (useShortest : Bool) (pick : Nat → Pick)
    (pick2 : Nat → Nat → Pick) :
    (collapseBind es t costs prizes quota r useShortest pick).isUb = true ∧
    (pathExtensionBind O es t costs prizes r step depth).isUb = true ∧
    (pathExtensionUntilPrizeFeasibleBind O es t costs prizes r quota step depth).isUb = true ∧
    (pathExtensionCollapseBind O es t costs prizes r quota useShortest pick pick2 depth step).isUb = true ∧
    (extensionUnitaryGainBind O es t costs prizes).isUb = true ∧
    (extensionUntilPrizeFeasibleBind O es t costs prizes quota).isUb = true := by
  have h1 := prepareRoot_unknown_prize hx ht hin hp r
  have h2 := prepare_unknown_prize hx ht hin hp
  exact ⟨Res.isUb_bind h1 _, Res.isUb_bind h1 _, Res.isUb_bind h1 _, Res.isUb_bind h1 _, Res.isUb_bind h2 _, Res.isUb_bind h2 _⟩

example : "e" ∉ endpoints namedEdges ∧ (collapseBind namedEdges ["a", "b", "c", "d", "a"] namedCosts (("e", 7) :: namedPrizes) 3 "a" false
    (fun _ => exPick)).isUb = true := by
  decide +kernel

/-- **C54.** A cost entry for two known vertices that are not joined throws, provided the entries before it are in order. -/
theorem C54_wrong_cost_entry (es : List (α × α)) (A B : List ((α × α) × Int)) (hA : ∀ p c, (p, c) ∈ A → AdjIn es p.1 p.2)
    (x y : α) (c : Int) (hx : x ∈ endpoints es) (hy : y ∈ endpoints es) (hxy : ¬ AdjIn es x y) (prizes : List (α × Int)) (t : List α)
    (ht : ∀ z ∈ t, z ∈ endpoints es) :
    ∃ i j, getNewVertex (renameEdges [] es).2 x = .ok i ∧ getNewVertex (renameEdges [] es).2 y = .ok j ∧
      prepare es t (A ++ ((x, y), c) :: B) prizes = .throw (.edgeNotFound i j) := by
  obtain ⟨ne, h1, h2⟩ := renameEdges_nil es
  have hD := firstSeen_nodup es
  obtain ⟨i, hi⟩ := List.mem_iff_getElem?.1 ((mem_firstSeen es x).2 hx)
  obtain ⟨j, hj⟩ := List.mem_iff_getElem?.1 ((mem_firstSeen es y).2 hy)
  obtain ⟨ns, hns⟩ := names_of_mem (mem_firstSeen es) t ht
  have hnew : getNewVertices (number 0 (firstSeen es)) t = .ok ns :=
    mapRes_forall₂ (List.Forall₂.imp (fun x k hk => (getNewVertex_number hD _ _).2 hk) hns)
  have gi := (getNewVertex_number hD x i).2 hi
  have gj := (getNewVertex_number hD y j).2 hj
  have split : ∀ (A : List ((α × α) × Int)) (f f' : Nat → Int), fillCostMap (graphOf ne) (number 0 (firstSeen es)) A f = .ok f' →
      fillCostMap (graphOf ne) (number 0 (firstSeen es)) (A ++ ((x, y), c) :: B) f =
        fillCostMap (graphOf ne) (number 0 (firstSeen es)) (((x, y), c) :: B) f' := by
    intro A
    induction A with
    | nil => intro f f' h; cases h; rfl
    | cons a A ih =>
      obtain ⟨p, d⟩ := a
      intro f f' h
      rw [fillCostMap] at h
      obtain ⟨s, e1, h⟩ := Res.bind_eq_ok.1 h
      obtain ⟨u, e2, h⟩ := Res.bind_eq_ok.1 h
      obtain ⟨e, e3, h⟩ := Res.bind_eq_ok.1 h
      rw [List.cons_append, fillCostMap, e1, Res.ok_bind, e2, Res.ok_bind, e3, Res.ok_bind]
      cases e with
      | none => cases h
      | some k => exact ih _ _ h
  obtain ⟨f, hf⟩ := fillCostMap_ok h1 A hA (fun _ => 0)
  rw [h1]
  refine ⟨i, j, gi, gj, ?_⟩
  rw [prepare, h1]
  simp only [hnew, Res.ok_bind, split A _ f hf]
  rw [fillCostMap, gi, Res.ok_bind, gj, Res.ok_bind, Graph.edge, if_pos (lt_graphOf hD h2 (fun x => (mem_firstSeen es x).1) hi)]
  have : (graphOf ne).edgeIdx i j = none := by
    rw [Graph.edgeIdx, List.findIdx?_eq_none_iff]
    rintro ⟨a, b⟩ he
    rw [Bool.eq_false_iff]
    intro hj'
    apply hxy
    rw [← adj_graphOf hD h2 hi hj]
    simp [joins] at hj'
    rcases hj' with ⟨rfl, rfl⟩ | ⟨rfl, rfl⟩
    · exact Or.inl he
    · exact Or.inr he
  rw [this]
  rfl

example := C54_wrong_cost_entry [(7, 9), (9, 4)] [((9, 7), 16)] [] (by simp [AdjIn]) 7 4 5 (by decide) (by decide) (by decide) [(7, 1)] [7, 9] (by decide)

/-- **C54.** An edge without cost entry has cost zero in the problem that the algorithms see. -/
theorem C54_missing_cost_entry (es : List (α × α)) (hes : es.Pairwise fun p q => ¬ SameEdge p q) (w : α → α → Int)
    (hw : ∀ x y, w x y = w y x) (costs : List ((α × α) × Int))
    (hc : ∀ p c, (p, c) ∈ costs → c = w p.1 p.2 ∧ AdjIn es p.1 p.2) (prizes : List (α × Int)) (t : List α) (p : Renamed α)
    (hp : prepare es t costs prizes = .ok p) (i : Nat) (e : α × α) (hi : es[i]? = some e) :
    ((∃ q c, (q, c) ∈ costs ∧ SameEdge q e) → p.cost i = w e.1 e.2) ∧
    ((∀ q c, (q, c) ∈ costs → ¬ SameEdge q e) → p.cost i = 0) := by
  obtain ⟨ne, h1, h2⟩ := renameEdges_nil es
  have hD := firstSeen_nodup es
  obtain ⟨f, h3, h4⟩ := fillCostMap_spec hD h2 (mem_firstSeen es) hes w hw costs (fun p c hp => (hc p c hp).1)
    (fun p c hp => (hc p c hp).2) (fun _ => 0)
  rw [prepare, h1] at hp
  obtain ⟨ns, -, hp⟩ := Res.bind_eq_ok.1 hp
  simp only [h3, Res.ok_bind] at hp
  obtain ⟨q, -, hp⟩ := Res.bind_eq_ok.1 hp
  cases hp
  refine ⟨fun ⟨q, c, hq, hs⟩ => ?_, fun hno => fillCostMap_untouched hD h2 costs _ f h3 i e hi hno⟩
  rcases h4 i e hi with h' | ⟨-, h'⟩
  · exact h'
  · exact absurd hs (h' q c hq)

/-- The edge `(9, 4)` has no cost entry. -/
example : (match prepare [(7, 9), (9, 4)] [7, 9] [((9, 7), 16)] [(7, 1), (9, 1), (4, 1)] with
    | .ok p => (p.cost 0, p.cost 1) | _ => (99, 99)) = (16, 0) := by decide +kernel
example : (match prepare [(7, 9), (9, 4)] [7, 9] [((7, 4), 16)] [(7, 1)] with
    | .throw (.edgeNotFound 0 2) => true | _ => false) = true := by decide +kernel

end Pctsp
