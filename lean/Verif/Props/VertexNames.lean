import Verif.Lemmas.VertexNames
import Verif.Props.Binding

/-!
# C133: the names of the vertices do not matter
-/

namespace Pctsp

variable {α β : Type} [DecidableEq α] [DecidableEq β] {φ : α → β} {F : Type}

/-- What a binding builds, with other names. -/
def Renamed.rename (φ : α → β) (p : Renamed α) : Renamed β := ⟨p.graph, p.lookup.rename φ, p.tour, p.cost, p.prize⟩

theorem costs_names (hφ : Function.Injective φ) (es : List (α × α)) {costs : List ((α × α) × Int)} {costs' : List ((β × β) × Int)}
    (hc : costs'.Perm (renameCosts φ costs)) (hcn : costs.Pairwise fun x y => ¬ SameEdge x.1 y.1) (g : Graph) (f : Nat → Int) :
    SameUpTo id (fillCostMap g (renameEdges [] es).2 costs f) (fillCostMap g ((renameEdges [] es).2.rename φ) costs' f) := by
  have hb : (renameEdges [] es).2.rename φ = number 0 (firstSeen (renamePairs φ es)) := by
    have := rename_renameEdges hφ es
    obtain ⟨ne, h, -⟩ := renameEdges_nil (renamePairs φ es)
    rw [h] at this
    exact ((Prod.ext_iff.1 this).2).symm
  rw [← rename_fillCostMap hφ, hb]
  refine fillCostMap_perm (firstSeen_nodup _) g hc.symm ?_ f
  rw [renameCosts, List.pairwise_map]
  refine hcn.imp fun h h' => h ?_
  rcases h' with h' | h'
  · left
    injection h' with h1 h2
    exact Prod.ext (hφ h1) (hφ h2)
  · right
    injection h' with h1 h2
    exact Prod.ext (hφ h1) (hφ h2)

theorem prizes_names (hφ : Function.Injective φ) (es : List (α × α)) {prizes : List (α × Int)} {prizes' : List (β × Int)}
    (hp : prizes'.Perm (renamePrizes φ prizes)) (hpn : (prizes.map (·.1)).Nodup) (f : Nat → Int) :
    SameUpTo id (fillVertexMap (renameEdges [] es).2 prizes f) (fillVertexMap ((renameEdges [] es).2.rename φ) prizes' f) := by
  have hb : (renameEdges [] es).2.rename φ = number 0 (firstSeen (renamePairs φ es)) := by
    have := rename_renameEdges hφ es
    obtain ⟨ne, h, -⟩ := renameEdges_nil (renamePairs φ es)
    rw [h] at this
    exact ((Prod.ext_iff.1 this).2).symm
  rw [← rename_fillVertexMap hφ, hb]
  refine fillVertexMap_perm (firstSeen_nodup _) hp.symm ?_ f
  have : (renamePrizes φ prizes).map (·.1) = (prizes.map (·.1)).map φ := by simp [renamePrizes]
  rw [this]
  exact hpn.map hφ

theorem prepare_names (hφ : Function.Injective φ) {es : List (α × α)} {costs : List ((α × α) × Int)} {costs' : List ((β × β) × Int)}
    {prizes : List (α × Int)} {prizes' : List (β × Int)} (hc : costs'.Perm (renameCosts φ costs)) (hcn : costs.Pairwise fun x y => ¬ SameEdge x.1 y.1)
    (hp : prizes'.Perm (renamePrizes φ prizes)) (hpn : (prizes.map (·.1)).Nodup) (tour : List α) :
    SameUpTo (Renamed.rename φ) (prepare es tour costs prizes) (prepare (renamePairs φ es) (tour.map φ) costs' prizes') := by
  unfold prepare
  rw [rename_renameEdges hφ]
  dsimp only
  rw [rename_getNewVertices hφ]
  refine (SameUpTo.refl _).bind fun t _ => (costs_names hφ es hc hcn _ _).bind fun c _ => (prizes_names hφ es hp hpn _).bind fun p _ => ?_
  exact .of_eq rfl

theorem prepareRoot_names (hφ : Function.Injective φ) {es : List (α × α)} {costs : List ((α × α) × Int)} {costs' : List ((β × β) × Int)}
    {prizes : List (α × Int)} {prizes' : List (β × Int)} (hc : costs'.Perm (renameCosts φ costs)) (hcn : costs.Pairwise fun x y => ¬ SameEdge x.1 y.1)
    (hp : prizes'.Perm (renamePrizes φ prizes)) (hpn : (prizes.map (·.1)).Nodup) (tour : List α) (root : α) :
    SameUpTo (fun x => (x.1.rename φ, x.2)) (prepareRoot es tour costs prizes root) (prepareRoot (renamePairs φ es) (tour.map φ) costs' prizes' (φ root)) := by
  unfold prepareRoot
  rw [rename_renameEdges hφ]
  dsimp only
  rw [rename_getNewVertex hφ]
  exact (SameUpTo.refl _).bind fun r _ => (prepare_names hφ hc hcn hp hpn tour).bind fun p _ => .of_eq rfl

/-- **C133.** The names of the vertices do not matter to the six heuristics: called with other names, each returns its answer with the other names, or it fails in
both cases.  The new names can be in any order (so the entries of the two maps, which are sorted by name, may come in another order), provided that no edge has
two entries in the map of costs. -/
theorem C133_heuristics (O : FloatOps F) (hφ : Function.Injective φ) {es : List (α × α)} {costs : List ((α × α) × Int)} {costs' : List ((β × β) × Int)}
    {prizes : List (α × Int)} {prizes' : List (β × Int)} (hc : costs'.Perm (renameCosts φ costs)) (hcn : costs.Pairwise fun x y => ¬ SameEdge x.1 y.1)
    (hp : prizes'.Perm (renamePrizes φ prizes)) (hpn : (prizes.map (·.1)).Nodup) (tour : List α) (root : α) (quota step depth : Int) (useShortest : Bool)
    (pick : Nat → Pick) (pick2 : Nat → Nat → Pick) :
    SameUpTo (List.map φ) (collapseBind es tour costs prizes quota root useShortest pick)
      (collapseBind (renamePairs φ es) (tour.map φ) costs' prizes' quota (φ root) useShortest pick) ∧
    SameUpTo (List.map φ) (pathExtensionBind O es tour costs prizes root step depth)
      (pathExtensionBind O (renamePairs φ es) (tour.map φ) costs' prizes' (φ root) step depth) ∧
    SameUpTo (List.map φ) (pathExtensionUntilPrizeFeasibleBind O es tour costs prizes root quota step depth)
      (pathExtensionUntilPrizeFeasibleBind O (renamePairs φ es) (tour.map φ) costs' prizes' (φ root) quota step depth) ∧
    SameUpTo (List.map φ) (extensionUntilPrizeFeasibleBind O es tour costs prizes quota)
      (extensionUntilPrizeFeasibleBind O (renamePairs φ es) (tour.map φ) costs' prizes' quota) ∧
    SameUpTo (List.map φ) (pathExtensionCollapseBind O es tour costs prizes root quota useShortest pick pick2 depth step)
      (pathExtensionCollapseBind O (renamePairs φ es) (tour.map φ) costs' prizes' (φ root) quota useShortest pick pick2 depth step) ∧
    SameUpTo (List.map φ) (extensionUnitaryGainBind O es tour costs prizes)
      (extensionUnitaryGainBind O (renamePairs φ es) (tour.map φ) costs' prizes') := by
  have h1 := prepareRoot_names hφ hc hcn hp hpn tour root (es := es)
  have h2 := prepare_names hφ hc hcn hp hpn tour (es := es)
  refine ⟨h1.bind fun p _ => ?_, h1.bind fun p _ => ?_, h1.bind fun p _ => ?_, h2.bind fun p _ => ?_, h1.bind fun p _ => ?_, h2.bind fun p _ => ?_⟩
  all_goals exact (SameUpTo.refl _).bind fun t _ => .of_eq (rename_getOldVertices _ _)

/-- **C133.** Nor to the exact solver: SCIP gets the same problem. -/
theorem C133_solver (scip : Problem → ScipOutcome) (order : Nat → List Nat) (hφ : Function.Injective φ) {es : List (α × α)} {costs : List ((α × α) × Int)}
    {costs' : List ((β × β) × Int)} {prizes disjoint : List (α × Int)} {prizes' disjoint' : List (β × Int)} (hc : costs'.Perm (renameCosts φ costs))
    (hcn : costs.Pairwise fun x y => ¬ SameEdge x.1 y.1) (hp : prizes'.Perm (renamePrizes φ prizes)) (hpn : (prizes.map (·.1)).Nodup)
    (hd : disjoint'.Perm (renamePrizes φ disjoint)) (hdn : (disjoint.map (·.1)).Nodup) (heur : List (α × α)) (quota : Int) (root : α) (o : SolveOptions)
    (pick : Pick) :
    SameUpTo (fun x => (x.1, renamePairs φ x.2)) (solveBind scip order es heur costs prizes quota root o disjoint pick)
      (solveBind scip order (renamePairs φ es) (renamePairs φ heur) costs' prizes' quota (φ root) o disjoint' pick) := by
  unfold solveBind
  rw [rename_renameEdges hφ]
  dsimp only
  rw [rename_getNewEdges hφ, rename_getNewVertex hφ]
  refine (SameUpTo.refl _).bind fun h _ => (SameUpTo.refl _).bind fun h _ => (SameUpTo.refl _).bind fun r _ => (costs_names hφ es hc hcn _ _).bind fun c _ =>
    (prizes_names hφ es hp hpn _).bind fun p _ => (prizes_names hφ es hd hdn _).bind fun d _ => (SameUpTo.refl _).bind fun x _ => ?_
  have h : SameUpTo (renamePairs φ) (getOldEdges (renameEdges [] es).2 x.2) (getOldEdges ((renameEdges [] es).2.rename φ) x.2) :=
    .of_eq (rename_getOldEdges _ _)
  exact h.bind fun y _ => .of_eq rfl

/-! Examples: a square with a diagonal that is shorter than the way around. -/

/-- The square 0, 1, 2, 3 and the diagonal. -/
def squareEdges : List (Nat × Nat) := [(0, 1), (1, 2), (2, 3), (3, 0), (0, 2)]
def squarePrizes : List (Nat × Int) := [(0, 1), (1, 1), (2, 1), (3, 1)]
/-- Costs of the edges; the diagonal has cost 5. -/
def squareCosts : List ((Nat × Nat) × Int) := [((0, 1), 3), ((0, 2), 5), ((0, 3), 3), ((1, 2), 3), ((2, 3), 3)]
/-- The costs with an entry for each direction of the diagonal, sorted by name. -/
def squareTwice : List ((Nat × Nat) × Int) := [((0, 1), 3), ((0, 2), 5), ((0, 3), 3), ((1, 2), 3), ((2, 0), 7), ((2, 3), 3)]
/-- Vertices 0 and 2 change their names. -/
def swap02 (v : Nat) : Nat := if v = 0 then 2 else if v = 2 then 0 else v
theorem swap02_injective : Function.Injective swap02 := by
  intro a b h
  unfold swap02 at h
  split at h <;> split at h <;> (try split at h) <;> (try split at h) <;> omega

-- the entries of both maps sorted by the new names
example : SameUpTo (List.map swap02) (collapseBind squareEdges [0, 1, 2, 3, 0] squareCosts squarePrizes 3 0 false (fun _ => exPick))
    (collapseBind [(2, 1), (1, 0), (0, 3), (3, 2), (2, 0)] [2, 1, 0, 3, 2] [((0, 3), 3), ((1, 0), 3), ((2, 0), 5), ((2, 1), 3), ((2, 3), 3)]
      [(0, 1), (1, 1), (2, 1), (3, 1)] 3 2 false (fun _ => exPick)) :=
  (C133_heuristics FloatOps.exact swap02_injective (es := squareEdges) (costs := squareCosts) (prizes := squarePrizes) (by decide) (by decide) (by decide)
    (by decide) [0, 1, 2, 3, 0] 0 3 1 2 false (fun _ => exPick) (fun _ _ => exPick)).1

example : collapseBind squareEdges [0, 1, 2, 3, 0] squareCosts squarePrizes 3 0 false (fun _ => exPick) = .ok [0, 1, 2, 0] := by decide +kernel

-- strings instead of numbers
example (scip : Problem → ScipOutcome) (order : Nat → List Nat) (o : SolveOptions) (pick : Pick) :
    SameUpTo (fun x => (x.1, renamePairs (fun v => "v" ++ String.ofList (List.replicate v 'x')) x.2))
      (solveBind scip order squareEdges [] squareCosts squarePrizes 3 0 o [] pick)
      (solveBind scip order (renamePairs (fun v => "v" ++ String.ofList (List.replicate v 'x')) squareEdges) []
        (renameCosts (fun v => "v" ++ String.ofList (List.replicate v 'x')) squareCosts)
        (renamePrizes (fun v => "v" ++ String.ofList (List.replicate v 'x')) squarePrizes) 3 ("v" ++ String.ofList (List.replicate 0 'x')) o [] pick) :=
  C133_solver scip order (φ := fun v => "v" ++ String.ofList (List.replicate v 'x')) (by
    intro a b h
    have := congrArg String.length h
    simpa using this) (.refl _) (by decide) (.refl _) (by decide) (.refl _) (by decide) [] 3 0 o pick

/-- The entries of a map are sorted by name. -/
def SortedKeys (l : List ((Nat × Nat) × Int)) : Prop := l.Pairwise fun x y => x.1.1 < y.1.1 ∨ x.1.1 = y.1.1 ∧ x.1.2 < y.1.2

instance (l : List ((Nat × Nat) × Int)) : Decidable (SortedKeys l) := by unfold SortedKeys; infer_instance

/-- **C133.** With an entry for both directions of an edge the names do matter: the entry whose key comes last by name counts, and other names give another tour. -/
theorem C133_directions : ∃ (es : List (Nat × Nat)) (tour : List Nat) (costs costs' : List ((Nat × Nat) × Int)) (prizes prizes' : List (Nat × Int)) (φ : Nat → Nat)
    (t t' : List Nat), Function.Injective φ ∧ SortedKeys costs ∧ SortedKeys costs' ∧ costs'.Perm (renameCosts φ costs) ∧ prizes'.Perm (renamePrizes φ prizes) ∧
    collapseBind es tour costs prizes 3 0 false (fun _ => exPick) = .ok t ∧
    collapseBind (renamePairs φ es) (tour.map φ) costs' prizes' 3 (φ 0) false (fun _ => exPick) = .ok t' ∧ t' ≠ t.map φ := by
  refine ⟨squareEdges, [0, 1, 2, 3, 0], squareTwice, [((0, 2), 7), ((0, 3), 3), ((1, 0), 3), ((2, 0), 5), ((2, 1), 3), ((2, 3), 3)], squarePrizes, squarePrizes, swap02,
    [0, 1, 2, 3, 0], [2, 1, 0, 2], swap02_injective, by decide, by decide, by decide, by decide, by decide +kernel, by decide +kernel, by decide⟩

end Pctsp
