import Verif.Lemmas.Block
import Verif.Props.Quality

/-!
# C136: the heuristics stay in the part of the graph where they start
-/

set_option linter.unusedSectionVars false

namespace Pctsp

section names

variable {α : Type} [DecidableEq α] {F : Type} {es : List (α × α)} {w : α → α → Int} {π : α → Int} {tour D : List α} {p : Renamed α} {S : α → Prop} {c : α}

theorem Prepared.gate (h : Prepared es w π tour D p) (hg : OnlyGate (AdjIn es) S c) :
    OnlyGate (Adj p.graph) (fun k => ∃ x, D[k]? = some x ∧ S x) (D.idxOf c) := by
  rintro u v hadj ⟨x, hx, hSx⟩ hv
  obtain ⟨t, ht⟩ := h.names (t' := [u, v]) (by intro q hq; simp [consec] at hq; rw [hq]; exact hadj) (by simp)
  obtain ⟨y, -, hy⟩ := forall₂_mem_right ht (y := v) (by simp)
  have := hg x y ((h.adj hx hy).1 hadj) hSx fun hS => hv ⟨y, hy, hS⟩
  subst this
  obtain ⟨hlt, rfl⟩ := List.getElem?_eq_some_iff.1 hx
  exact (h.nodup.idxOf_getElem u hlt).symm

theorem Prepared.into (h : Prepared es w π tour D p) (hS : ∀ x ∈ tour, S x) : ∀ k ∈ p.tour, ∃ x, D[k]? = some x ∧ S x := fun k hk => by
  obtain ⟨x, hx, hr⟩ := forall₂_mem_right h.named hk
  exact ⟨x, hr, hS x hx⟩

theorem Prepared.out (h : Prepared es w π tour D p) {s : List Nat} {t : List α} (ht : getOldVertices p.lookup s = .ok t)
    (hS : ∀ k ∈ s, ∃ x, D[k]? = some x ∧ S x) : ∀ x ∈ t, S x := fun x hx => by
  obtain ⟨k, hk, hr⟩ := forall₂_mem_right (mapRes_eq_ok.1 ht) hx
  rw [h.lookup, getOldVertex_number] at hr
  obtain ⟨y, hy, hSy⟩ := hS k hk
  rw [hr] at hy
  cases hy
  exact hSy

/-- **C136.** Let `S` be a set of vertices of which only one, `c`, has neighbours outside.  A tour in `S` stays in `S`, whatever heuristic of the library is
called on it. -/
theorem C136_stay (O : FloatOps F) (hO : O.SignSound) (hO' : O.Strict) (costs : List ((α × α) × Int)) (prizes : List (α × Int))
    (h : Describes es costs prizes w π) (hp : ∀ x, 0 ≤ π x) (hg : OnlyGate (AdjIn es) S c) (r : α) (t : List α) (ht : IsTourIn es r t) (hlen : 3 ≤ t.length)
    (hS : ∀ x ∈ t, S x) (quota step depth : Int) (useShortest : Bool) (pick : Nat → Pick) (picks : Nat → Nat → Pick) (hpick : ∀ i, (pick i).Heap)
    (hpicks : ∀ j i, (picks j i).Heap) (t' : List α)
    (hr : 1 ≤ step ∧ pathExtensionBind O es t costs prizes r step depth = .ok t' ∨
      1 ≤ step ∧ pathExtensionUntilPrizeFeasibleBind O es t costs prizes r quota step depth = .ok t' ∨
      extensionUnitaryGainBind O es t costs prizes = .ok t' ∨ extensionUntilPrizeFeasibleBind O es t costs prizes quota = .ok t' ∨
      collapseBind es t costs prizes quota r useShortest pick = .ok t' ∨
      pathExtensionCollapseBind O es t costs prizes r quota useShortest pick picks depth step = .ok t') : ∀ x ∈ t', S x := by
  obtain ⟨p, r', h1, h1', h2, h3, h4⟩ := prepareRoot_spec h ht
  have hgate := h2.gate hg
  have hin := h2.into hS
  have hroot : r' ∈ p.tour := by obtain ⟨m, hm⟩ := h4.shape; rw [hm]; simp
  have hlt : ∀ x ∈ p.tour, x < p.graph.n := by
    intro k hk
    obtain ⟨x, -, hx⟩ := forall₂_mem_right h2.named hk
    exact h2.lt k x hx
  have hlen' : 3 ≤ p.tour.length := by rw [← h2.named.length_eq]; exact hlen
  rcases hr with ⟨hs, hr⟩ | ⟨hs, hr⟩ | hr | hr | hr | hr
  · rw [pathExtensionBind, h1] at hr
    simp only [Res.ok_bind] at hr
    obtain ⟨s, q1, q2⟩ := Res.bind_eq_ok.1 hr
    exact h2.out q2 (pathExtensionLoop_in hgate O hO h2.wf p.cost p.prize (h2.nonneg hp) step depth hs _ _ _ _ s h4 q1 hin)
  · rw [pathExtensionUntilPrizeFeasibleBind, h1] at hr
    simp only [Res.ok_bind] at hr
    obtain ⟨s, q1, q2⟩ := Res.bind_eq_ok.1 hr
    exact h2.out q2 (pathExtensionUntil_in hgate O hO h2.wf p.cost p.prize quota step depth hs _ s h4 q1 hin)
  · rw [extensionUnitaryGainBind, h1'] at hr
    simp only [Res.ok_bind] at hr
    obtain ⟨s, q1, q2⟩ := Res.bind_eq_ok.1 hr
    obtain ⟨s', q3, -, q4⟩ := C17_gain_only_inserts O hO' p.graph p.cost p.prize p.tour h4.ne_nil hlt h4.walk
    rw [q1] at q3; cases q3
    exact h2.out q2 (gainSteps_in hgate q4 h4 hlen' hin)
  · rw [extensionUntilPrizeFeasibleBind, h1'] at hr
    simp only [Res.ok_bind] at hr
    obtain ⟨s, q1, q2⟩ := Res.bind_eq_ok.1 hr
    obtain ⟨s', q3, -, q4⟩ := C17_until_feasible_only_inserts O hO' p.graph p.cost p.prize quota p.tour h4.ne_nil hlt h4.walk
    rw [q1] at q3; cases q3
    exact h2.out q2 (gainSteps_in hgate q4 h4 hlen' hin)
  · rw [collapseBind, h1] at hr
    simp only [Res.ok_bind] at hr
    obtain ⟨s, q1, q2⟩ := Res.bind_eq_ok.1 hr
    exact h2.out q2 (collapse_in hgate h2.wf h4 hroot (h2.nonneg hp) hpick q1 hin)
  · rw [pathExtensionCollapseBind, h1] at hr
    simp only [Res.ok_bind] at hr
    obtain ⟨s, q1, q2⟩ := Res.bind_eq_ok.1 hr
    exact h2.out q2 (pathExtensionCollapse_in hgate O hO h2.wf p.cost p.prize (h2.nonneg hp) quota useShortest hpick hpicks depth step _ s h4 q1 hin)

end names

section runs

variable {V : Type} [DecidableEq V] {G : LabGraph V} {w : V → V → Int} {π : V → Int} {root : V} {flags : PreprocessFlags} {quota : Int} {mp : ModelParams}
  {s : Option ScipStatus} {r : LabResult V} {S : V → Prop} {c : V}

/-- **C136.** Let `S` be a set of vertices of which only one has neighbours outside, such that all cycles through the root with at most one edge more than a
shortest one lie in `S`.  Then a run of the two heuristics that start from a breadth first search cannot report a tour that leaves `S`.  Extension and collapse
reports a tour; path extension and collapse reports nothing, or a tour that meets the quota, which it does if all these cycles meet it. -/
theorem C136_runs (hG : G.Ok w π) (hno : ∀ e ∈ G.edges, e.1 ≠ e.2) (hc : ∃ vs, NxCycle G.nx vs ∧ root ∈ vs) (hh : mp.isHeuristic = true)
    (R : VialRun flags G w π quota root mp s r) (hg : OnlyGate (AdjIn G.edges) S c)
    (hS : ∀ m, NxCycle G.nx (root :: m) → (∀ vs, NxCycle G.nx vs → root ∈ vs → (root :: m).length ≤ vs.length + 1) → ∀ x ∈ root :: m, S x) :
    (mp.algorithm = .bfsExtensionCollapse → ∃ t, Reports w π t r ∧ IsTourIn G.edges root t ∧ 4 ≤ t.length ∧ ∀ x ∈ t, S x) ∧
    (mp.algorithm = .bfsPathExtensionCollapse →
      (ReportsNothing r ∧ ∃ m, NxCycle G.nx (root :: m) ∧ (∀ vs, NxCycle G.nx vs → root ∈ vs → (root :: m).length ≤ vs.length + 1) ∧
        namedPrize π (root :: (m ++ [root])) < quota) ∨
      ∃ t, Reports w π t r ∧ FeasibleIn G.edges π quota root t ∧ ∀ x ∈ t, S x) := by
  letI := R.ord
  obtain ⟨c1, c2, c3, c4⟩ := C99_ok hG R.preprocessed hc
  obtain ⟨-, hcyc, -⟩ := C70_tours_kept R.component R.components R.limit flags G.nx R.h root hG.wf R.preprocessed.comp R.preprocessed.bicomp R.preprocessed.run
  have hno' : ∀ e ∈ (G.restrict R.h).edges, e.1 ≠ e.2 := fun e he => hno e (List.mem_filter.1 he).1
  have hgate : OnlyGate (AdjIn (G.restrict R.h).edges) S c := fun u v huv =>
    hg u v (huv.imp (fun h => (List.mem_filter.1 h).1) (fun h => (List.mem_filter.1 h).1))
  have hrun := R.run
  simp only [runVial, R.preprocessed.run, Res.ok_bind, if_pos c3] at hrun
  obtain ⟨m, hm, -⟩ := C85_paths R.suurballe
  obtain ⟨small, h1, h2, h3⟩ := C76_bfs_cycle R.env.setOrder R.envOk.setOrder R.h c1.wf root c3 R.env.tree R.envOk.tree
  obtain ⟨l, rfl, hl⟩ := h3 fun e => h2.1 e c4
  have hshort : ∀ vs, NxCycle G.nx vs → root ∈ vs → (root :: l).length ≤ vs.length + 1 := by
    intro vs hvs hr
    have := C76_almost_shortest R.env.setOrder R.envOk.setOrder R.h c1.wf root c3 R.env.tree R.envOk.tree _ h1 vs ((hcyc vs hr).2 hvs) hr
    simpa using this
  have hl' := (hcyc _ (by simp)).1 hl
  have hin : ∀ x ∈ root :: (l ++ [root]), S x := by
    intro x hx
    refine hS l hl' hshort x ?_
    rw [← List.cons_append, List.mem_append] at hx
    exact hx.elim id fun h => by simp at h; simp [h]
  have htour := c1.tour hl
  have hlen : 4 ≤ (root :: (l ++ [root])).length := by
    have := hl.long
    simp at this ⊢; omega
  have report : ∀ t, runHeuristic R.env (G.restrict R.h) quota root mp.algorithm (vertexDisjointCostMap R.names R.T R.st (treeNodes (R.head root) R.dij)) m none
      mp.depthLimit mp.stepSize = .ok (consec t) → t = [] ∨ IsTourIn (G.restrict R.h).edges root t →
      (t = [] → ReportsNothing r) ∧ (t ≠ [] → Reports w π t r) := by
    intro t k1 k2
    obtain ⟨r₁, r1, r2, r3⟩ := C92_heuristic (π := π) c1 hno' R.suurballe hm R.reorderOk hh R.scip R.order k1 k2
    rw [hrun] at r1
    obtain ⟨-, rfl⟩ := Prod.mk.inj (Res.ok.inj r1)
    exact ⟨r2, r3⟩
  refine ⟨fun ha => ?_, fun ha => ?_⟩
  · obtain ⟨long, t, k1, k2, k3, k4, k5, k6, k7, k8⟩ := runExtensionCollapse_spec c1 R.envOk quota htour
    have hes := runHeuristic_of_first (cp := none) (dl := mp.depthLimit) (ss := mp.stepSize) (alg := .bfsExtensionCollapse)
      (costMap := vertexDisjointCostMap R.names R.T R.st (treeNodes (R.head root) R.dij)) (pathsMap := m) R.envOk (by simp [usesSuurballe]) h1 k4
    have hrep := (report t (by rw [ha]; exact hes) (.inr k5)).2 (by obtain ⟨_, rfl⟩ := k5.shape; simp)
    refine ⟨t, hrep, C99_subgraph k5, k8 hlen, ?_⟩
    simp only [runExtensionCollapse, extensionUnitaryGainCollapsePy, k1, Res.ok_bind] at k4
    obtain ⟨_, -, k4⟩ := Res.bind_eq_ok.1 k4
    have hlong := C136_stay R.env.float R.envOk.signSound R.envOk.strict _ _ c1.describes c1.prizes hgate root _ htour (by omega) hin quota 0 0 false
      R.env.pick R.env.picks R.envOk.pick R.envOk.picks long (.inr (.inr (.inl k1)))
    have hll : 3 ≤ long.length := by
      obtain ⟨⟨long', j1, -, -, -, j2⟩, -⟩ := C52_extension_gain R.env.float R.envOk.strict R.envOk.divSign _ _ _ w π c1.describes c1.prizes root _ htour quota
      rw [k1] at j1
      cases j1
      omega
    exact C136_stay R.env.float R.envOk.signSound R.envOk.strict _ _ c1.describes c1.prizes hgate root _ k2 hll hlong quota 0 0 false
      R.env.pick R.env.picks R.envOk.pick R.envOk.picks t (.inr (.inr (.inr (.inr (.inl k4)))))
  · obtain ⟨t, k1, k2⟩ := C52_path_extension_collapse R.env.float R.envOk.signSound _ _ _ w π c1.describes c1.prizes root _ htour quota
      false (fun _ => c1.costs) R.env.pick0 R.env.picks R.envOk.pick0 R.envOk.picks (orDefault mp.depthLimit (G.restrict R.h).nx.nodes.length)
      (orDefault mp.stepSize 10)
    have hes := runHeuristic_of_first (cp := none) (dl := mp.depthLimit) (ss := mp.stepSize) (alg := .bfsPathExtensionCollapse)
      (costMap := vertexDisjointCostMap R.names R.T R.st (treeNodes (R.head root) R.dij)) (pathsMap := m) R.envOk (by simp [usesSuurballe]) h1 k1
    have hrep := report t (by rw [ha]; exact hes) (k2.imp (·.1) (·.1))
    rcases k2 with ⟨rfl, k2⟩ | ⟨j1, j2, j3, j4⟩
    · exact .inl ⟨hrep.1 rfl, l, hl', hshort, k2⟩
    · refine .inr ⟨t, hrep.2 (by obtain ⟨_, rfl⟩ := j1.shape; simp), ⟨C99_subgraph j1, j4 hlen, j2⟩, ?_⟩
      exact C136_stay R.env.float R.envOk.signSound R.envOk.strict _ _ c1.describes c1.prizes hgate root _ htour (by omega) hin quota _ _ false
        R.env.pick0 R.env.picks R.envOk.pick0 R.envOk.picks t (.inr (.inr (.inr (.inr (.inr k1)))))

end runs

/-! ## A cheap cycle and a dear triangle that meet at the root -/

def earEdges : List (Fin 7 × Fin 7) := [(0, 1), (1, 2), (2, 3), (3, 4), (4, 0), (0, 5), (5, 6), (6, 0)]
def earCost (K : Nat) (x y : Fin 7) : Int := if 5 ≤ x ∨ 5 ≤ y then 5 * K + 1 else 1
def earLab (K : Nat) : LabGraph (Fin 7) := labGraph earEdges (earCost K) (fun _ => 1)

/-- The vertices of the triangle. -/
def inEar (x : Fin 7) : Prop := x = 0 ∨ 5 ≤ x

theorem earLab_ok (K : Nat) : (earLab K).Ok (earCost K) (fun _ => 1) :=
  labGraph_ok (by decide) (fun x y => by simp only [earCost, or_comm]) (by decide) (by decide) (fun x y => by unfold earCost; split <;> omega)

theorem ear_simple : ∀ e ∈ earEdges, e.1 ≠ e.2 := by decide
theorem ear_gate : OnlyGate (AdjIn earEdges) inEar 0 := by unfold OnlyGate inEar; decide +kernel
theorem ear_cheap : FeasibleIn earEdges (fun _ => 1) 5 0 [0, 1, 2, 3, 4, 0] := ⟨⟨⟨[1, 2, 3, 4], rfl⟩, by decide, by decide⟩, by decide, by decide⟩
theorem ear_cycle (K : Nat) : NxCycle (earLab K).nx [0, 5, 6] :=
  show NxCycle (earLab 0).nx [0, 5, 6] from ⟨by decide, by decide, by decide, by unfold NxWalk; decide +kernel⟩

/-- The short cycles through the root are those of the triangle. -/
theorem ear_short (K : Nat) {m : List (Fin 7)} (hm : NxCycle (earLab K).nx (0 :: m))
    (hs : ∀ vs, NxCycle (earLab K).nx vs → 0 ∈ vs → ((0 : Fin 7) :: m).length ≤ vs.length + 1) : m = [5, 6] ∨ m = [6, 5] := by
  have h := (earLab_ok K).tour hm
  have h1 := hs _ (ear_cycle K) (by simp)
  have h2 := hm.long
  have hw : ∀ p ∈ consec ((0 : Fin 7) :: (m ++ [0])), AdjIn earEdges p.1 p.2 := h.walk
  have hn := hm.nodup
  clear h hs hm
  match m, h1, h2 with
  | [a, b], _, _ => revert a b; decide +kernel
  | [a, b, d], _, _ => revert a b d; decide +kernel

theorem ear_tour {t : List (Fin 7)} (ht : IsTourIn earEdges 0 t) (h4 : 4 ≤ t.length) (hS : ∀ x ∈ t, inEar x) : t = [0, 5, 6, 0] ∨ t = [0, 6, 5, 0] := by
  obtain ⟨⟨m, rfl⟩, hn, hw⟩ := ht
  rw [← List.cons_append, List.dropLast_concat] at hn
  have hsub : m ⊆ [5, 6] := by
    intro x hx
    have h0 : x ≠ 0 := fun e => (List.nodup_cons.1 hn).1 (e ▸ hx)
    have := hS x (by simp [hx])
    clear * - h0 this
    revert x
    unfold inEar
    decide
  have hlen := (List.nodup_cons.1 hn).2.subperm hsub |>.length_le
  match m, hlen with
  | [], _ => simp at h4
  | [a], _ => simp at h4
  | [a, b], _ => clear hS hlen h4; revert a b; decide +kernel

theorem ear_costs (K : Nat) : namedCost (earCost K) [0, 1, 2, 3, 4, 0] = 5 ∧ namedCost (earCost K) [0, 5, 6, 0] = 3 * (5 * K + 1) ∧
    namedCost (earCost K) [0, 6, 5, 0] = 3 * (5 * K + 1) := by
  refine ⟨?_, ?_, ?_⟩ <;> simp [namedCost, consec, earCost] <;> ring

/-- **C136.** There is no constant factor.  For every number there is an instance with a feasible tour of cost 5 on which the two heuristics that start from a
breadth first search always return, and whatever they report is a feasible tour that costs more than that number times 5. -/
theorem C136_factor (K : Nat) : ∃ (G : LabGraph (Fin 7)) (w : Fin 7 → Fin 7 → Int) (π : Fin 7 → Int) (t : List (Fin 7)), G.Ok w π ∧ (∀ e ∈ G.edges, e.1 ≠ e.2) ∧
    FeasibleIn G.edges π 3 0 t ∧ namedCost w t = 5 ∧
    ∀ flags mp, flags.shortestPathCutoff = false ∧ flags.disjointPathCutoff = false → mp.isHeuristic = true →
      mp.algorithm = .bfsExtensionCollapse ∨ mp.algorithm = .bfsPathExtensionCollapse →
      (∃ r, Nonempty (VialRun flags G w π 3 0 mp none r)) ∧
      ∀ s r, VialRun flags G w π 3 0 mp s r → ∃ t', FeasibleIn G.edges π 3 0 t' ∧ Reports w π t' r ∧ K * 5 < r.objective := by
  have hc : ∃ vs, NxCycle (earLab K).nx vs ∧ 0 ∈ vs := ⟨_, ear_cycle K, by simp⟩
  have hcheap : FeasibleIn (earLab K).edges (fun _ => 1) 3 0 [0, 1, 2, 3, 4, 0] := ⟨ear_cheap.tour, ear_cheap.three, by decide⟩
  refine ⟨earLab K, earCost K, fun _ => 1, _, earLab_ok K, ear_simple, hcheap, (ear_costs K).1, fun flags mp hf hh ha => ⟨?_, fun s r R => ?_⟩⟩
  · obtain ⟨r, h, -⟩ := C127_heuristics (earLab_ok K) ear_simple hc 3 hf hh (ha.imp_right .inl)
    exact ⟨r, h⟩
  · have hin : ∀ m, NxCycle (earLab K).nx (0 :: m) → (∀ vs, NxCycle (earLab K).nx vs → 0 ∈ vs → ((0 : Fin 7) :: m).length ≤ vs.length + 1) →
        ∀ x ∈ (0 : Fin 7) :: m, inEar x := by
      intro m hm hs
      rcases ear_short K hm hs with rfl | rfl <;> unfold inEar <;> decide
    obtain ⟨h1, h2⟩ := C136_runs (earLab_ok K) ear_simple hc hh R (S := inEar) (c := 0) ear_gate hin
    have fin : ∀ t, IsTourIn (earLab K).edges 0 t → 4 ≤ t.length → (∀ x ∈ t, inEar x) → 3 ≤ namedPrize (fun _ => 1) t ∧ (K : Int) * 5 < namedCost (earCost K) t := by
      intro t ht h4 hS
      rcases ear_tour ht h4 hS with rfl | rfl
      · rw [(ear_costs K).2.1]; exact ⟨by decide, by omega⟩
      · rw [(ear_costs K).2.2]; exact ⟨by decide, by omega⟩
    rcases ha with ha | ha
    · obtain ⟨t, k1, k2, k3, k4⟩ := h1 ha
      obtain ⟨j1, j2⟩ := fin t k2 k3 k4
      exact ⟨t, ⟨k2, k3, j1⟩, k1, by rw [k1.objective]; exact j2⟩
    · rcases h2 ha with ⟨-, m, k1, k2, k3⟩ | ⟨t, k1, k2, k4⟩
      · rcases ear_short K k1 k2 with rfl | rfl <;> exact absurd k3 (by decide)
      · exact ⟨t, k2, k1, by rw [k1.objective]; exact (fin t k2.tour k2.three k4).2⟩

/-- **C136.** They can miss all the feasible tours.  There is an instance with a feasible tour on which both always return, but path extension and collapse never
reports a tour, and extension and collapse always reports one that does not meet the quota. -/
theorem C136_stuck : ∃ (G : LabGraph (Fin 7)) (w : Fin 7 → Fin 7 → Int) (π : Fin 7 → Int) (t : List (Fin 7)), G.Ok w π ∧ (∀ e ∈ G.edges, e.1 ≠ e.2) ∧
    FeasibleIn G.edges π 4 0 t ∧
    ∀ flags mp, flags.shortestPathCutoff = false ∧ flags.disjointPathCutoff = false → mp.isHeuristic = true →
      mp.algorithm = .bfsExtensionCollapse ∨ mp.algorithm = .bfsPathExtensionCollapse →
      (∃ r, Nonempty (VialRun flags G w π 4 0 mp none r)) ∧
      ∀ s r, VialRun flags G w π 4 0 mp s r →
        (mp.algorithm = .bfsExtensionCollapse → ∃ t', IsTourIn G.edges 0 t' ∧ Reports w π t' r ∧ r.prize < 4) ∧
        (mp.algorithm = .bfsPathExtensionCollapse → ReportsNothing r) := by
  have hc : ∃ vs, NxCycle (earLab 0).nx vs ∧ 0 ∈ vs := ⟨_, ear_cycle 0, by simp⟩
  have hcheap : FeasibleIn (earLab 0).edges (fun _ => 1) 4 0 [0, 1, 2, 3, 4, 0] := ⟨ear_cheap.tour, ear_cheap.three, by decide⟩
  refine ⟨earLab 0, earCost 0, fun _ => 1, _, earLab_ok 0, ear_simple, hcheap, fun flags mp hf hh ha => ⟨?_, fun s r R => ?_⟩⟩
  · obtain ⟨r, h, -⟩ := C127_heuristics (earLab_ok 0) ear_simple hc 4 hf hh (ha.imp_right .inl)
    exact ⟨r, h⟩
  · obtain ⟨h1, h2⟩ := C136_runs (earLab_ok 0) ear_simple hc hh R (S := inEar) (c := 0) ear_gate (by
      intro m hm hs
      rcases ear_short 0 hm hs with rfl | rfl <;> unfold inEar <;> decide)
    have fin : ∀ t, IsTourIn (earLab 0).edges 0 t → 4 ≤ t.length → (∀ x ∈ t, inEar x) → namedPrize (fun _ => 1) t < 4 := by
      intro t ht h4 hS
      rcases ear_tour ht h4 hS with rfl | rfl <;> decide
    refine ⟨fun ha => ?_, fun ha => ?_⟩
    · obtain ⟨t, k1, k2, k3, k4⟩ := h1 ha
      exact ⟨t, k2, k1, by rw [k1.prize]; exact fin t k2 k3 k4⟩
    · rcases h2 ha with ⟨k, -⟩ | ⟨t, k1, k2, k4⟩
      · exact k
      · exact absurd (fin t k2.tour k2.three k4) (not_lt.2 k2.prize)

/-! ## Examples -/

/-- A complete graph with four vertices and a triangle that meet at the root: the tour grows in the complete graph, but cannot meet the quota 5. -/
example : ∃ es : List (Fin 6 × Fin 6), es = [(0, 1), (0, 2), (0, 3), (1, 2), (1, 3), (2, 3), (0, 4), (4, 5), (5, 0)] ∧
    (labGraph es (fun _ _ => 1) (fun _ => 1)).Ok (fun _ _ => 1) (fun _ => 1) ∧ OnlyGate (AdjIn es) (fun x => x < 4) 0 ∧ IsTourIn es 0 [0, 1, 2, 0] ∧
    (∀ x ∈ [0, 1, 2, (0 : Fin 6)], x < 4) ∧ FloatOps.ieeeExact.SignSound ∧ FloatOps.ieeeExact.Strict ∧ exPick.Heap ∧
    pathExtensionUntilPrizeFeasibleBind FloatOps.ieeeExact es [0, 1, 2, 0] (labGraph es (fun _ _ => 1) (fun _ => 1)).costs
      (labGraph es (fun _ _ => 1) (fun _ => 1)).prizes 0 4 1 4 = .ok [0, 3, 1, 2, 0] ∧
    pathExtensionCollapseBind FloatOps.ieeeExact es [0, 1, 2, 0] (labGraph es (fun _ _ => 1) (fun _ => 1)).costs
      (labGraph es (fun _ _ => 1) (fun _ => 1)).prizes 0 4 true (fun _ => exPick) (fun _ _ => exPick) 4 1 = .ok [0, 3, 1, 2, 0] ∧
    pathExtensionCollapseBind FloatOps.ieeeExact es [0, 1, 2, 0] (labGraph es (fun _ _ => 1) (fun _ => 1)).costs
      (labGraph es (fun _ _ => 1) (fun _ => 1)).prizes 0 5 true (fun _ => exPick) (fun _ _ => exPick) 4 1 = .ok [] :=
  ⟨_, rfl, labGraph_ok (by decide) (by decide) (by decide) (by decide) (by decide), by unfold OnlyGate; decide +kernel, ⟨⟨[1, 2], rfl⟩, by decide, by decide⟩,
    by decide, FloatOps.ieeeExact_signSound, FloatOps.ieeeExact_strict, exPick_heap, by decide +kernel, by decide +kernel, by decide +kernel⟩

end Pctsp
