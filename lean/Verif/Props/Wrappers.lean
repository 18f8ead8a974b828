import Verif.Lemmas.Wrappers
import Verif.Props.Python

/-!
# Property C119: the Python wrappers of the heuristics on a networkx graph
-/

namespace Pctsp

variable {α : Type} [DecidableEq α] {F : Type}

/-- A networkx graph as the wrappers need it: the edges are between vertices and no undirected edge is listed twice, every edge has a cost
and every vertex with an edge has a prize; `w` and `π` are the costs and prizes by name. -/
structure AttrGraph.Ok (G : AttrGraph α) (w : α → α → Int) (π : α → Int) : Prop where
  ends : ∀ x ∈ endpoints G.edges, x ∈ G.nodes
  distinct : G.edges.Pairwise fun p q => ¬ SameEdge p q
  symm : ∀ x y, w x y = w y x
  costs : ∀ e ∈ G.edges, G.cost e = some (w e.1 e.2)
  prizes : ∀ x ∈ endpoints G.edges, G.prize x = some (π x)

/-- There is a vertex with a prize and without edges. -/
def AttrGraph.Isolated (G : AttrGraph α) : Prop := ∃ x ∈ G.nodes, (∃ p, G.prize x = some p) ∧ ∀ y, ¬ AdjIn G.edges x y

theorem AttrGraph.Ok.describes {G : AttrGraph α} {w : α → α → Int} {π : α → Int} (h : G.Ok w π) (hi : ¬ G.Isolated) :
    Describes G.edges G.costDict G.prizeDict w π where
  distinct := h.distinct
  symm := h.symm
  costOk p c hp := by
    obtain ⟨h1, h2⟩ := AttrGraph.mem_costDict.1 hp
    rw [h.costs p h1] at h2
    cases h2
    exact ⟨rfl, .inl h1⟩
  allCosts e he := ⟨e, _, AttrGraph.mem_costDict.2 ⟨he, h.costs e he⟩, .inl rfl⟩
  prizeOk x c hx := by
    obtain ⟨h1, h2⟩ := AttrGraph.mem_prizeDict.1 hx
    have hx' : x ∈ endpoints G.edges := by
      by_contra hn
      rw [mem_endpoints_iff] at hn
      exact hi ⟨x, h1, ⟨c, h2⟩, fun y hy => hn ⟨y, hy⟩⟩
    rw [h.prizes x hx'] at h2
    cases h2
    exact ⟨rfl, hx'⟩
  allPrizes x hx := ⟨_, AttrGraph.mem_prizeDict.2 ⟨h.ends x hx, h.prizes x hx⟩⟩

theorem AttrGraph.Ok.isolated_cost {G : AttrGraph α} {w : α → α → Int} {π : α → Int} (_h : G.Ok w π) :
    ∀ p c, (p, c) ∈ G.costDict → AdjIn G.edges p.1 p.2 := fun _ _ hp => .inl (AttrGraph.mem_costDict.1 hp).1

/-- **C119.** If every vertex with a prize has an edge, the extensions return a tour with at least as much prize. -/
theorem C119_extensions (O : FloatOps F) (hO : O.SignSound) (hS : O.Strict) (hD : O.DivSign) (G : AttrGraph α) (w : α → α → Int)
    (π : α → Int) (h : G.Ok w π) (hi : ¬ G.Isolated) (hp : ∀ x, 0 ≤ π x) (r : α) (t : List α) (ht : IsTourIn G.edges r t) (quota a b : Int)
    (ha : 1 ≤ a) :
    ∀ f ∈ [extensionUnitaryGainNx O G t, extensionUntilPrizeFeasibleNx O G t quota, extensionUnitaryLossNx O G t r,
        pathExtensionNx O G t r a b, pathExtensionUntilPrizeFeasibleNx O G t r quota a b],
      ∃ t', f = .ok t' ∧ IsTourIn G.edges r t' ∧ namedPrize π t ≤ namedPrize π t' ∧ (4 ≤ t.length → 4 ≤ t'.length) := by
  have d := h.describes hi
  have h1 := C52_extension_gain O hS hD _ _ _ w π d hp r t ht quota
  intro f hf
  simp only [List.mem_cons, List.not_mem_nil, or_false] at hf
  rcases hf with rfl | rfl | rfl | rfl | rfl
  · obtain ⟨t', q1, q2, q3, -, q4⟩ := h1.1
    exact ⟨t', q1, q2, q3, fun _ => by omega⟩
  · obtain ⟨t', q1, q2, q3, -, q4⟩ := h1.2
    exact ⟨t', q1, q2, q3, fun _ => by omega⟩
  · exact C52_path_extension O hO _ _ _ w π d hp r t ht 1 2 (by decide)
  · exact C52_path_extension O hO _ _ _ w π d hp r t ht a b ha
  · obtain ⟨t', q1, q2, q3, -, q4⟩ := C52_path_extension_until O hO _ _ _ w π d r t ht quota a b ha
    exact ⟨t', q1, q2, q3, q4⟩

/-- **C119.** `collapse` works for all costs, `path_collapse` for non-negative ones: the result is a tour that costs at most as much and is
feasible if the input is. -/
theorem C119_collapse (G : AttrGraph α) (w : α → α → Int) (π : α → Int) (h : G.Ok w π) (hi : ¬ G.Isolated) (hp : ∀ x, 0 ≤ π x) (r : α)
    (t : List α) (ht : IsTourIn G.edges r t) (quota : Int) (pick : Nat → Pick) (hpick : ∀ i, (pick i).Heap) :
    (∃ t', collapseNx G t quota r pick = .ok t' ∧ IsTourIn G.edges r t' ∧ namedCost w t' ≤ namedCost w t ∧
      (quota ≤ namedPrize π t → quota ≤ namedPrize π t') ∧ (4 ≤ t.length → 4 ≤ t'.length)) ∧
    ((∀ x y, 0 ≤ w x y) → ∃ t', pathCollapseNx G t quota r pick = .ok t' ∧ IsTourIn G.edges r t' ∧ namedCost w t' ≤ namedCost w t ∧
      (quota ≤ namedPrize π t → quota ≤ namedPrize π t') ∧ (4 ≤ t.length → 4 ≤ t'.length)) :=
  ⟨C52_collapse _ _ _ w π (h.describes hi) hp r t ht quota false (fun hc => by cases hc) pick hpick,
   fun hw => C52_collapse _ _ _ w π (h.describes hi) hp r t ht quota true (fun _ => hw) pick hpick⟩

/-- **C119.** `extension_unitary_gain_collapse` returns a tour that costs at most as much as the extended tour and is feasible if that is;
`path_extension_collapse` returns the empty list, only if the input is below the quota, or a feasible tour. -/
theorem C119_extension_and_collapse (O : FloatOps F) (hO : O.SignSound) (hS : O.Strict) (hD : O.DivSign) (G : AttrGraph α) (w : α → α → Int)
    (π : α → Int) (h : G.Ok w π) (hi : ¬ G.Isolated) (hp : ∀ x, 0 ≤ π x) (r : α) (t : List α) (ht : IsTourIn G.edges r t) (quota a b : Int)
    (useShortest : Bool) (hw : useShortest = true → ∀ x y, 0 ≤ w x y) (pick : Nat → Pick) (pick2 : Nat → Nat → Pick)
    (hpick : ∀ i, (pick i).Heap) (hpick2 : ∀ j i, (pick2 j i).Heap) :
    (∃ long t', extensionUnitaryGainNx O G t = .ok long ∧ extensionUnitaryGainCollapseNx O G t quota r pick = .ok t' ∧
      IsTourIn G.edges r t' ∧ namedCost w t' ≤ namedCost w long ∧ (quota ≤ namedPrize π long → quota ≤ namedPrize π t') ∧
      (4 ≤ t.length → 4 ≤ t'.length)) ∧
    (∃ t', pathExtensionCollapseNx O G t r quota useShortest a b pick pick2 = .ok t' ∧
      (t' = [] ∧ namedPrize π t < quota ∨
       IsTourIn G.edges r t' ∧ quota ≤ namedPrize π t' ∧ (quota ≤ namedPrize π t → namedCost w t' ≤ namedCost w t) ∧
         (4 ≤ t.length → 4 ≤ t'.length))) := by
  have d := h.describes hi
  refine ⟨?_, C52_path_extension_collapse O hO _ _ _ w π d hp r t ht quota useShortest hw pick pick2 hpick hpick2 a b⟩
  obtain ⟨long, q1, q2, -, -, q3⟩ := (C52_extension_gain O hS hD _ _ _ w π d hp r t ht quota).1
  obtain ⟨t', s1, s2, s3, s4, s5⟩ := (C119_collapse G w π h hi hp r long q2 quota pick hpick).1
  refine ⟨long, t', q1, ?_, s2, s3, s4, fun h4 => s5 (by omega)⟩
  rw [extensionUnitaryGainCollapseNx, extensionUnitaryGainNx, q1]
  exact s1

/-- All wrappers, with the arguments of the theorem below. -/
def allWrappers (O : FloatOps F) (G : AttrGraph α) (t : List α) (r : α) (quota a b : Int) (useShortest : Bool) (pick : Nat → Pick)
    (pick2 : Nat → Nat → Pick) : List (Res (List α)) :=
  [extensionUnitaryGainNx O G t, extensionUntilPrizeFeasibleNx O G t quota, extensionUnitaryLossNx O G t r,
    pathExtensionNx O G t r a b, pathExtensionUntilPrizeFeasibleNx O G t r quota a b, collapseNx G t quota r pick,
    pathCollapseNx G t quota r pick, extensionUnitaryGainCollapseNx O G t quota r pick,
    pathExtensionCollapseNx O G t r quota useShortest a b pick pick2]

/-- **C119.** Each of the wrappers is undefined iff there is a vertex with a prize and without edges. -/
theorem C119_isolated (O : FloatOps F) (hO : O.SignSound) (hS : O.Strict) (hD : O.DivSign) (G : AttrGraph α) (w : α → α → Int)
    (π : α → Int) (h : G.Ok w π) (hp : ∀ x, 0 ≤ π x) (hw : ∀ x y, 0 ≤ w x y) (r : α) (t : List α) (ht : IsTourIn G.edges r t)
    (quota a b : Int) (ha : 1 ≤ a) (useShortest : Bool) (pick : Nat → Pick) (pick2 : Nat → Nat → Pick) (hpick : ∀ i, (pick i).Heap)
    (hpick2 : ∀ j i, (pick2 j i).Heap) :
    ∀ f ∈ allWrappers O G t r quota a b useShortest pick pick2, f.isUb = true ↔ G.Isolated := by
  by_cases hi : G.Isolated
  · obtain ⟨x, hx, ⟨p, hxp⟩, hno⟩ := hi
    have hx' : x ∉ endpoints G.edges := by
      rw [mem_endpoints_iff]; rintro ⟨y, hy⟩; exact hno y hy
    have key := fun (us : Bool) (s d : Int) => C53_unknown_prize O G.edges G.costDict G.prizeDict t r x p hx'
      (AttrGraph.mem_prizeDict.2 ⟨hx, hxp⟩) ht.mem_endpoints h.isolated_cost quota s d us pick pick2
    intro f hf
    refine iff_of_true ?_ ⟨x, hx, ⟨p, hxp⟩, hno⟩
    simp only [allWrappers, List.mem_cons, List.not_mem_nil, or_false] at hf
    rcases hf with rfl | rfl | rfl | rfl | rfl | rfl | rfl | rfl | rfl
    · exact (key false a b).2.2.2.2.1
    · exact (key false a b).2.2.2.2.2
    · exact (key false 1 2).2.1
    · exact (key false a b).2.1
    · exact (key false a b).2.2.1
    · exact (key false a b).1
    · exact (key true a b).1
    · exact Res.isUb_bind (key false a b).2.2.2.2.1 _
    · exact (key useShortest b a).2.2.2.1
  · intro f hf
    refine iff_of_false ?_ hi
    simp only [allWrappers, List.mem_cons, List.not_mem_nil, or_false] at hf
    have e1 := C119_extensions O hO hS hD G w π h hi hp r t ht quota a b ha
    have e2 := C119_collapse G w π h hi hp r t ht quota pick hpick
    have e3 := C119_extension_and_collapse O hO hS hD G w π h hi hp r t ht quota a b useShortest (fun _ => hw) pick pick2 hpick hpick2
    have : ∃ t', f = .ok t' := by
      rcases hf with rfl | rfl | rfl | rfl | rfl | rfl | rfl | rfl | rfl
      · obtain ⟨t', q, -⟩ := e1 (extensionUnitaryGainNx O G t) (by simp); exact ⟨t', q⟩
      · obtain ⟨t', q, -⟩ := e1 (extensionUntilPrizeFeasibleNx O G t quota) (by simp); exact ⟨t', q⟩
      · obtain ⟨t', q, -⟩ := e1 (extensionUnitaryLossNx O G t r) (by simp); exact ⟨t', q⟩
      · obtain ⟨t', q, -⟩ := e1 (pathExtensionNx O G t r a b) (by simp); exact ⟨t', q⟩
      · obtain ⟨t', q, -⟩ := e1 (pathExtensionUntilPrizeFeasibleNx O G t r quota a b) (by simp); exact ⟨t', q⟩
      · obtain ⟨t', q, -⟩ := e2.1; exact ⟨t', q⟩
      · obtain ⟨t', q, -⟩ := e2.2 hw; exact ⟨t', q⟩
      · obtain ⟨_, t', -, q, -⟩ := e3.1; exact ⟨t', q⟩
      · obtain ⟨t', q, -⟩ := e3.2; exact ⟨t', q⟩
    obtain ⟨t', rfl⟩ := this
    simp [Res.isUb]

/-- **C119.** An edge without a cost counts as free, and a vertex that has edges and no prize counts as one with prize zero. -/
theorem C119_missing (O : FloatOps F) (G : AttrGraph α) (hes : G.edges.Pairwise fun p q => ¬ SameEdge p q) (hn : G.nodes.Nodup) (t : List α)
    (r : α) (quota a b : Int) (useShortest : Bool) (pick : Nat → Pick) (pick2 : Nat → Nat → Pick) :
    allWrappers O G t r quota a b useShortest pick pick2 = allWrappers O G.filled t r quota a b useShortest pick pick2 ∧
    (∀ e ∈ G.edges, G.filled.cost e = some ((G.cost e).getD 0)) ∧
    (∀ x ∈ endpoints G.edges, G.filled.prize x = some ((G.prize x).getD 0)) ∧ (G.filled.Isolated ↔ G.Isolated) := by
  have h := prepare_filled G hes hn
  have hr : ∀ t, prepareRoot G.edges t G.costDict G.prizeDict r = prepareRoot G.filled.edges t G.filled.costDict G.filled.prizeDict r := by
    intro t
    rw [prepareRoot, prepareRoot, h t]
    rfl
  have hg : ∀ t, prepare G.edges t G.costDict G.prizeDict = prepare G.filled.edges t G.filled.costDict G.filled.prizeDict := h
  refine ⟨?_, fun _ _ => rfl, fun x hx => if_pos hx, ?_⟩
  · simp only [allWrappers, extensionUnitaryGainNx, extensionUntilPrizeFeasibleNx, extensionUnitaryLossNx, pathExtensionNx,
      pathExtensionUntilPrizeFeasibleNx, collapseNx, pathCollapseNx, extensionUnitaryGainCollapseNx, pathExtensionCollapseNx,
      extensionUnitaryGainBind, extensionUntilPrizeFeasibleBind, extensionUnitaryLossPy, pathExtensionPy, pathExtensionBind,
      pathExtensionUntilPrizeFeasibleBind, collapseBind, pathExtensionCollapseBind, hr, hg]
  · have hx : ∀ x, (∀ y, ¬ AdjIn G.edges x y) → G.filled.prize x = G.prize x := fun x hno => if_neg fun hx => by
      obtain ⟨y, hy⟩ := mem_endpoints_iff.1 hx
      exact hno y hy
    constructor
    · rintro ⟨x, h1, h2, h3⟩
      exact ⟨x, h1, by rw [← hx x h3]; exact h2, h3⟩
    · rintro ⟨x, h1, h2, h3⟩
      exact ⟨x, h1, by rw [hx x h3]; exact h2, h3⟩

/-- The square with a chord vertex and a vertex `e` without edges that has a prize or not. -/
def isolatedGraph (p : Option Int) : AttrGraph String :=
  { nodes := ["a", "b", "c", "d", "e"], prize := fun v => if v = "e" then p else some 1, edges := namedEdges, cost := fun _ => some 1 }

theorem isolatedGraph_ok (p : Option Int) : (isolatedGraph p).Ok (fun _ _ => 1) (fun _ => 1) where
  ends := by
    show ∀ x ∈ endpoints namedEdges, x ∈ ["a", "b", "c", "d", "e"]
    decide +kernel
  distinct := named_describes.distinct
  symm _ _ := rfl
  costs _ _ := rfl
  prizes x hx := by
    have : ∀ x ∈ endpoints namedEdges, x ≠ "e" := by decide +kernel
    simp [isolatedGraph, this x hx]

example : (isolatedGraph (some 0)).Isolated := ⟨"e", by simp [isolatedGraph], ⟨0, by simp [isolatedGraph]⟩, by
  intro y hy
  have h1 : ∀ q ∈ namedEdges, q.1 ≠ "e" ∧ q.2 ≠ "e" := by decide +kernel
  rcases hy with hy | hy
  · exact (h1 _ hy).1 rfl
  · exact (h1 _ hy).2 rfl⟩

theorem isolatedGraph_none : ¬ (isolatedGraph none).Isolated := by
  rintro ⟨x, hx, ⟨p, hp⟩, hno⟩
  by_cases he : x = "e"
  · simp [isolatedGraph, he] at hp
  · have h1 : ∀ x ∈ ["a", "b", "c", "d", "e"], x ≠ "e" → ∃ q ∈ namedEdges, x = q.1 ∨ x = q.2 := by decide +kernel
    obtain ⟨⟨u, v⟩, hq, rfl | rfl⟩ := h1 x hx he
    · exact hno v (.inl hq)
    · exact hno u (.inr hq)

example : pathExtensionCollapseNx FloatOps.exact (isolatedGraph none) ["a", "b", "c", "a"] "a" 4 false 2 1 (fun _ => exPick)
    (fun _ _ => exPick) = .ok ["a", "b", "c", "d", "a"] ∧
    (pathExtensionCollapseNx FloatOps.exact (isolatedGraph (some 0)) ["a", "b", "c", "a"] "a" 4 false 2 1 (fun _ => exPick)
    (fun _ _ => exPick)).isUb = true := by decide +kernel

/-- A graph as in C119_missing: an edge without a cost and a vertex without a prize. -/
def missingGraph : AttrGraph String :=
  { nodes := ["a", "b", "c", "d"], prize := fun v => if v = "d" then none else some 1, edges := namedEdges,
    cost := fun e => if e = ("a", "b") then none else some 1 }

example : missingGraph.edges.Pairwise fun p q => ¬ SameEdge p q := named_describes.distinct
example : missingGraph.nodes.Nodup := by decide
example : missingGraph.filled.cost ("a", "b") = some 0 ∧ ∃ e ∈ missingGraph.edges, missingGraph.cost e = none := ⟨rfl, ("a", "b"), by decide, rfl⟩
example : collapseNx missingGraph ["a", "b", "c", "d", "a"] 3 "a" (fun _ => exPick) = .ok ["a", "b", "c", "a"] := by decide +kernel

theorem ieeeExact_signSound' : FloatOps.ieeeExact.SignSound := fun h => by simp_all [FloatOps.ieeeExact, FloatOps.ieee, Ext.lt]
example := C119_missing FloatOps.exact missingGraph named_describes.distinct (by decide) ["a", "b", "c", "d", "a"] "a" 3 1 2 true (fun _ => exPick)
  (fun _ _ => exPick)
example := C119_isolated FloatOps.ieeeExact ieeeExact_signSound' FloatOps.ieeeExact_strict FloatOps.ieeeExact_divSign (isolatedGraph (some 0)) _ _
  (isolatedGraph_ok _) (fun _ => by decide) (fun _ _ => by decide) "a" _ named_tour 4 1 2 (by decide) true (fun _ => exPick) (fun _ _ => exPick)
  (fun _ => exPick_heap) (fun _ _ => exPick_heap)
example := C119_extensions FloatOps.ieeeExact ieeeExact_signSound' FloatOps.ieeeExact_strict FloatOps.ieeeExact_divSign (isolatedGraph none) _ _
  (isolatedGraph_ok _) isolatedGraph_none (fun _ => by decide) "a" _ named_tour 4 1 2 (by decide)
example := C119_collapse (isolatedGraph none) _ _ (isolatedGraph_ok _) isolatedGraph_none (fun _ => by decide) "a" _ named_tour 3 (fun _ => exPick)
  (fun _ => exPick_heap)
example := C119_extension_and_collapse FloatOps.ieeeExact ieeeExact_signSound' FloatOps.ieeeExact_strict FloatOps.ieeeExact_divSign
  (isolatedGraph none) _ _ (isolatedGraph_ok _) isolatedGraph_none (fun _ => by decide) "a" _ named_tour 4 1 2 true (fun _ _ _ => by decide)
  (fun _ => exPick) (fun _ _ => exPick) (fun _ => exPick_heap) (fun _ _ => exPick_heap)

end Pctsp
