import Verif.Lemmas.Root
import Verif.Props.Monotone
import Verif.Props.Satisfiable
import Verif.Model.Wrappers

/-!
# C154: what the choice of the root changes
-/

namespace Pctsp

section tours

variable {V : Type} [DecidableEq V]

/-- The vertices of a tour are the ends of its edges. -/
theorem FeasibleIn.mem_of_edges {es : List (V × V)} {π : V → Int} {q : Int} {root x : V} {t : List V} {ps : List (V × V)}
    (h : FeasibleIn es π q root t) (he : EdgesOfTour t ps) (hx : x ∈ endpoints ps) : x ∈ t :=
  List.dropLast_subset _ ((he.ends h.tour).subset (List.mem_dedup.2 hx))

/-- **C154.** Two calls of the solver on the same instance, with different roots (and any start solutions and settings without cost covers).  If the
answer of the first call visits the second root, an answer of the second call with the status `optimal` costs no more, and the status of the second call
is not `infeasible`.  If both are optimal and each visits the other root, they cost the same. -/
theorem C154_solver {es heur heur' : List (V × V)} {costs : List ((V × V) × Int)} {prizes : List (V × Int)} {w : V → V → Int} {π : V → Int}
    (h : Describes es costs prizes w π) (hno : ∀ e ∈ es, e.1 ≠ e.2) (hw : ∀ x y, 0 ≤ w x y) {quota : Int} {root root' : V} (hroot : root ∈ endpoints es)
    (hroot' : root' ∈ endpoints es) (hheur : ∀ p ∈ heur, AdjIn es p.1 p.2) (hheur' : ∀ p ∈ heur', AdjIn es p.1 p.2) {o o' : SolveOptions}
    (hd : o.coverDisjoint = false) (hs : o.coverShortest = false) (hd' : o'.coverDisjoint = false) (hs' : o'.coverShortest = false)
    (hprize : o.cycleCover = true ∨ o'.cycleCover = true → ∀ x, 0 ≤ π x) {pick pick' : Pick} (hpick : pick.Heap) (hpick' : pick'.Heap)
    {scip scip' : Problem → ScipOutcome} {order : Nat → List Nat} (ho : ∀ n, (order n).Perm (List.range n)) {k : Int}
    (hscip : ∀ P, ScipSpec k P (order P.graph.edges.length) (scip P)) (hscip' : ∀ P, ScipSpec k P (order P.graph.edges.length) (scip' P))
    {st st' : ScipStatus} {ps ps' : List (V × V)} (h1 : solveBind scip order es heur costs prizes quota root o [] pick = .ok (st, ps))
    (h2 : solveBind scip' order es heur' costs prizes quota root' o' [] pick' = .ok (st', ps')) :
    (root' ∈ endpoints ps → st' = .optimal → (ps'.map fun p => w p.1 p.2).sum ≤ (ps.map fun p => w p.1 p.2).sum) ∧
    (root' ∈ endpoints ps → st' ≠ .infeasible) ∧
    (root' ∈ endpoints ps → root ∈ endpoints ps' → st = .optimal → st' = .optimal →
      (ps'.map fun p => w p.1 p.2).sum = (ps.map fun p => w p.1 p.2).sum) := by
  obtain ⟨_, _, a1, a2, a3, a4⟩ := C88_solve (δ := fun _ => 0) h hno hw (quota := quota) hroot hheur o (disjoint := []) (by simp) hpick ho (Or.inr ⟨hd, hs⟩) hscip
    (by simp [hs]) (fun hc => hprize (Or.inl hc)) (by simp [hd]) (by simp [hd, hs])
  obtain ⟨_, _, b1, b2, b3, b4⟩ := C88_solve (δ := fun _ => 0) h hno hw (quota := quota) hroot' hheur' o' (disjoint := []) (by simp) hpick' ho (Or.inr ⟨hd', hs'⟩)
    hscip' (by simp [hs']) (fun hc => hprize (Or.inr hc)) (by simp [hd']) (by simp [hd', hs'])
  cases h1.symm.trans a1
  cases h2.symm.trans b1
  have key : ∀ {r r' : V} {l l' : List (V × V)}, (l = [] ∨ ∃ t, FeasibleIn es π quota r t ∧ EdgesOfTour t l) →
      (∃ t, FeasibleIn es π quota r' t ∧ EdgesOfTour t l' ∧ ∀ t', FeasibleIn es π quota r' t' → namedCost w t ≤ namedCost w t') → r' ∈ endpoints l →
      (l'.map fun p => w p.1 p.2).sum ≤ (l.map fun p => w p.1 p.2).sum := by
    rintro r r' l l' (rfl | ⟨t, ht, he⟩) ⟨t', ht', he', hmin⟩ hr
    · cases hr
    · obtain ⟨u, hu, hc, -⟩ := ht.reroot (ht.mem_of_edges he hr)
      have := hmin u hu
      rw [namedCost_perm hc] at this
      rw [he.sum h.symm, he'.sum h.symm]
      exact this
  refine ⟨fun hr hst => key a2 (b3 hst) hr, fun hr hst => ?_, fun hr hr' hst hst' => Int.le_antisymm (key a2 (b3 hst') hr) (key b2 (a3 hst) hr')⟩
  rcases a2 with rfl | ⟨t, ht, he⟩
  · cases hr
  · obtain ⟨u, hu, -⟩ := ht.reroot (ht.mem_of_edges he hr)
    exact (b4 hst).2 u hu

/-- **C154.** The same for two runs of the exact experiment on the same graph, with preprocessing and with any settings that are safe. -/
theorem C154_run {G : LabGraph V} {w : V → V → Int} {π : V → Int} {q : Int} {root root' : V} {f f' : PreprocessFlags} {mp mp' : ModelParams}
    {s s' : Option ScipStatus} {r r' : LabResult V} (hG : G.Ok w π) (hno : ∀ e ∈ G.edges, e.1 ≠ e.2) (hh : mp.isHeuristic = false)
    (hh' : mp'.isHeuristic = false) (he : mp.isExact = true) (he' : mp'.isExact = true) (R : VialRun f G w π q root mp s r)
    (R' : VialRun f' G w π q root' mp' s' r') (hcov : R.CoverOk) (hcov' : R'.CoverOk) :
    (root' ∈ endpoints r.edges → s' = some .optimal → r'.objective ≤ r.objective) ∧
    (root' ∈ endpoints r.edges → s' ≠ some .infeasible) ∧
    (root' ∈ endpoints r.edges → root ∈ endpoints r'.edges → s = some .optimal → s' = some .optimal → r'.objective = r.objective) := by
  obtain ⟨a1, a2, -⟩ := R.exact hG hno hh he hcov
  obtain ⟨b1, b2, b3⟩ := R'.exact hG hno hh' he' hcov'
  have key : ∀ {x x' : V} {l l' : LabResult V}, (ReportsNothing l ∨ ∃ t, FeasibleIn G.edges π q x t ∧ Reports w π t l) →
      (∃ t, FeasibleIn G.edges π q x' t ∧ Reports w π t l' ∧ ∀ t', FeasibleIn G.edges π q x' t' → namedCost w t ≤ namedCost w t') →
      x' ∈ endpoints l.edges → l'.objective ≤ l.objective := by
    rintro x x' l l' (hn | ⟨t, ht, hrep⟩) ⟨t', ht', hrep', hmin⟩ hr
    · rw [hn.edges] at hr; cases hr
    · obtain ⟨u, hu, hc, -⟩ := ht.reroot (ht.mem_of_edges hrep.edges hr)
      have := hmin u hu
      rw [namedCost_perm hc] at this
      rw [hrep.objective, hrep'.objective]
      exact this
  refine ⟨fun hr hst => key a1 (b2 hst) hr, fun hr hst => ?_, fun hr hr' hst hst' => Int.le_antisymm (key a1 (b2 hst') hr) (key b1 (a2 hst) hr')⟩
  rcases a1 with hn | ⟨t, ht, hrep⟩
  · rw [hn.edges] at hr; cases hr
  · obtain ⟨u, hu, -⟩ := ht.reroot (ht.mem_of_edges hrep.edges hr)
    exact (b3 hst).2 u hu

end tours

section heuristics

variable {α : Type} [DecidableEq α] {F : Type}

theorem getNewVertex_known {es : List (α × α)} {x : α} (hx : x ∈ endpoints es) : ∃ k, getNewVertex (renameEdges [] es).2 x = .ok k := by
  obtain ⟨ne, h1, -⟩ := renameEdges_nil es
  obtain ⟨k, hk⟩ := List.mem_iff_getElem?.1 (mem_firstSeen es x |>.2 hx)
  exact ⟨k, by rw [h1]; exact (getNewVertex_number (firstSeen_nodup es) _ _).2 hk⟩

theorem prepareRoot_any {β : Type} {es : List (α × α)} {root root' : α} (hr : root ∈ endpoints es) (hr' : root' ∈ endpoints es) (tour : List α)
    (costs : List ((α × α) × Int)) (prizes : List (α × Int)) (k : Renamed α × Nat → Res β) (hk : ∀ p r r', k (p, r) = k (p, r')) :
    (prepareRoot es tour costs prizes root >>= k) = (prepareRoot es tour costs prizes root' >>= k) := by
  obtain ⟨x, hx⟩ := getNewVertex_known hr
  obtain ⟨y, hy⟩ := getNewVertex_known hr'
  rw [prepareRoot, prepareRoot]
  simp only [hx, hy, Res.ok_bind]
  cases prepare es tour costs prizes with
  | ub s => rfl
  | throw e => rfl
  | ok p => exact hk p x y

/-- **C154.** With the step size 1 path extension does not depend on the root, for every tour and in any arithmetic. -/
theorem C154_path_extension (O : FloatOps F) {es : List (α × α)} {root root' : α} (hr : root ∈ endpoints es) (hr' : root' ∈ endpoints es) (tour : List α)
    (costs : List ((α × α) × Int)) (prizes : List (α × Int)) (depth : Int) :
    pathExtensionBind O es tour costs prizes root 1 depth = pathExtensionBind O es tour costs prizes root' 1 depth :=
  prepareRoot_any hr hr' tour costs prizes _ fun p r r' => by
    simp only [pathExtension, pathExtensionLoop_one O p.graph p.cost p.prize r r']

/-- **C154.** The same for path extension until the quota is reached. -/
theorem C154_path_extension_until (O : FloatOps F) {es : List (α × α)} {root root' : α} (hr : root ∈ endpoints es) (hr' : root' ∈ endpoints es)
    (tour : List α) (costs : List ((α × α) × Int)) (prizes : List (α × Int)) (quota depth : Int) :
    pathExtensionUntilPrizeFeasibleBind O es tour costs prizes root quota 1 depth =
      pathExtensionUntilPrizeFeasibleBind O es tour costs prizes root' quota 1 depth :=
  prepareRoot_any hr hr' tour costs prizes _ fun p r r' => by
    simp only [pathExtensionUntilPrizeFeasible, pathExtensionUntilLoop_one O p.graph p.cost p.prize r r']

/-- **C154.** The same for extension by unitary loss on a networkx graph. -/
theorem C154_unitary_loss (O : FloatOps F) (G : AttrGraph α) {root root' : α} (hr : root ∈ endpoints G.edges) (hr' : root' ∈ endpoints G.edges)
    (tour : List α) : extensionUnitaryLossNx O G tour root = extensionUnitaryLossNx O G tour root' :=
  C154_path_extension O hr hr' tour _ _ 2

/-- A square and a vertex that can replace 1 or 3. -/
def exFive : List (Nat × Nat) := [(0, 1), (1, 2), (2, 3), (3, 0), (0, 4), (4, 2), (0, 2), (1, 3)]

/-- Its costs. -/
def exFiveCosts : List ((Nat × Nat) × Int) :=
  [((0, 1), 2), ((1, 2), 2), ((2, 3), 1), ((3, 0), 1), ((0, 4), 3), ((4, 2), 3), ((0, 2), 1), ((1, 3), 1)]

/-- Its prizes. -/
def exFivePrizes : List (Nat × Int) := [(0, 1), (1, 0), (2, 1), (3, 5), (4, 10)]

/-- **C154.** With a larger step size, and in collapse, the root matters. -/
theorem C154_matters : pathExtensionBind FloatOps.ieeeExact exFive [0, 1, 2, 3, 0] exFiveCosts exFivePrizes 0 2 2 = .ok [0, 4, 2, 3, 0] ∧
    pathExtensionBind FloatOps.ieeeExact exFive [0, 1, 2, 3, 0] exFiveCosts exFivePrizes 1 2 2 = .ok [0, 1, 2, 4, 0] ∧
    collapseBind exFive [0, 1, 2, 3, 0] exFiveCosts exFivePrizes 5 0 false (fun _ => exPick) = .ok [0, 1, 2, 3, 0] ∧
    collapseBind exFive [0, 1, 2, 3, 0] exFiveCosts exFivePrizes 5 1 false (fun _ => exPick) = .ok [1, 2, 3, 1] := by
  decide +kernel

/-- With the step size 1 the tour is extended, and the root is none of the vertices at which it starts. -/
example : pathExtensionBind FloatOps.ieeeExact [(0, 1), (1, 2), (2, 0), (0, 3), (3, 1), (3, 4), (4, 1)] [0, 1, 2, 0]
      [((0, 1), 5), ((3, 0), 4), ((1, 3), 4)] [(0, 1), (1, 1), (2, 1), (3, 9), (4, 9)] 2 1 3 = .ok [0, 3, 4, 1, 2, 0] ∧
    pathExtensionUntilPrizeFeasibleBind FloatOps.ieeeExact [(0, 1), (1, 2), (2, 0), (0, 3), (3, 1), (3, 4), (4, 1)] [0, 1, 2, 0]
      [((0, 1), 5), ((3, 0), 4), ((1, 3), 4)] [(0, 1), (1, 1), (2, 1), (3, 9), (4, 9)] 4 20 1 2 = .ok [0, 3, 4, 1, 2, 0] := by
  decide +kernel

end heuristics

/-- A tour of four vertices that collects four prizes of 1 visits them all. -/
theorem four_all {root : Fin 4} {t : List (Fin 4)} {ps : List (Fin 4 × Fin 4)} (h : FeasibleIn fourLab.edges (fun _ => 1) 4 root t) (he : EdgesOfTour t ps)
    (x : Fin 4) : x ∈ endpoints ps := by
  have h1 := (he.ends h.tour).symm.subset
  refine List.mem_dedup.1 (h1 ?_)
  by_contra hx
  have h2 : (x :: t.dropLast).Nodup := List.nodup_cons.2 ⟨hx, h.tour.nodup⟩
  have h3 := h2.length_le_card
  have h4 := h.prize
  simp only [namedPrize, List.map_const', List.sum_replicate, nsmul_eq_mul, mul_one, List.length_cons, Fintype.card_fin] at h3 h4
  omega

theorem four_tour (root : Fin 4) : ∃ t, FeasibleIn fourLab.edges (fun _ => 1) 4 root t := by
  obtain ⟨t, h, -⟩ := (show FeasibleIn fourLab.edges (fun _ => 1) 4 0 [0, 1, 2, 3, 0] from
    ⟨⟨⟨[1, 2, 3], rfl⟩, by decide, by decide⟩, by decide, by decide⟩).reroot (root' := root) (by revert root; decide)
  exact ⟨t, h⟩

/-- Two calls with the roots 0 and 3 that meet all hypotheses of `C154_solver`. -/
example : ∃ (scip : Problem → ScipOutcome) (ps ps' : List (Fin 4 × Fin 4)), (∀ P, ScipSpec 1 P (List.range P.graph.edges.length) (scip P)) ∧
    solveBind scip List.range fourLab.edges [] fourLab.costs fourLab.prizes 4 0 ⟨false, false, true, true, true⟩ [] exPick = .ok (.optimal, ps) ∧
    solveBind scip List.range fourLab.edges [] fourLab.costs fourLab.prizes 4 3 ⟨false, false, true, true, true⟩ [] exPick = .ok (.optimal, ps') ∧
    3 ∈ endpoints ps ∧ 0 ∈ endpoints ps' := by
  obtain ⟨scip, hscip⟩ := exists_scip 1 List.range
  have key : ∀ root : Fin 4, ∃ ps, solveBind scip List.range fourLab.edges [] fourLab.costs fourLab.prizes 4 root ⟨false, false, true, true, true⟩ [] exPick =
      .ok (.optimal, ps) ∧ ∀ x, x ∈ endpoints ps := by
    intro root
    obtain ⟨st, ps, h1, -, h3, h4⟩ := C88_solve (δ := fun _ => 0) fourLab_ok.describes (by decide) fourLab_ok.costs (quota := 4) (root := root)
      (by revert root; decide) (heur := []) (by simp) ⟨false, false, true, true, true⟩ (disjoint := []) (by simp) exPick_heap (fun n => List.Perm.refl _)
      (Or.inl rfl) (fun P => (hscip P).1) (by simp) (by simp) (by simp) (by simp)
    obtain ⟨P, hP⟩ := solveBind_status h1
    obtain ⟨t, ht⟩ := four_tour root
    have hst : st = .optimal := by
      rcases (hscip P).2 with h | h
      · rw [hP, h]
      · exact absurd ht ((h4 (by rw [hP, h])).2 _)
    subst hst
    obtain ⟨t', ht', he, -⟩ := h3 rfl
    exact ⟨ps, h1, four_all ht' he⟩
  obtain ⟨ps, h1, h2⟩ := key 0
  obtain ⟨ps', h1', h2'⟩ := key 3
  exact ⟨scip, ps, ps', fun P => (hscip P).1, h1, h1', h2 3, h2' 0⟩

/-- Two runs with the roots 0 and 3 that meet all hypotheses of `C154_run`. -/
example : ∃ (r r' : LabResult (Fin 4)) (R : VialRun (londonaqFlags false) fourLab fourCost (fun _ => 1) 4 0
      (londonaqParams false false fourHours .solvePctsp).model (some .optimal) r)
    (R' : VialRun (londonaqFlags false) fourLab fourCost (fun _ => 1) 4 3 (londonaqParams false false fourHours .solvePctsp).model (some .optimal) r'),
    R.CoverOk ∧ R'.CoverOk ∧ 3 ∈ endpoints r.edges ∧ 0 ∈ endpoints r'.edges := by
  have key : ∀ root : Fin 4, ∃ r, ∃ R : VialRun (londonaqFlags false) fourLab fourCost (fun _ => 1) 4 root
      (londonaqParams false false fourHours .solvePctsp).model (some .optimal) r, R.CoverOk ∧ ∀ x, x ∈ endpoints r.edges := by
    intro root
    obtain ⟨t, ht⟩ := four_tour root
    obtain ⟨s, r, R, h1, h2, -⟩ := C127_exact fourLab_ok (by decide) (root := root) 4 (flags := londonaqFlags false) ⟨rfl, rfl⟩
      (mp := (londonaqParams false false fourHours .solvePctsp).model) rfl rfl
      (.inl ⟨⟨[0, 1, 2, 3], ⟨by decide, by decide, by decide, by unfold NxWalk; decide +kernel⟩, by clear ht; revert root; decide⟩, by decide⟩) rfl rfl
    obtain rfl := h2.2 ⟨t, ht⟩
    obtain ⟨-, h3, -⟩ := R.exact fourLab_ok (by decide) rfl rfl h1
    obtain ⟨t', ht', hr, -⟩ := h3 rfl
    exact ⟨r, R, h1, four_all ht' hr.edges⟩
  obtain ⟨r, R, h1, h2⟩ := key 0
  obtain ⟨r', R', h1', h2'⟩ := key 3
  exact ⟨r, r', R, R', h1, h1', h2 3, h2' 0⟩

end Pctsp
