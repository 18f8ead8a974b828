import Mathlib.Tactic.IntervalCases
import Verif.Props.Quality
import Verif.Props.Block

/-!
# C138: the two heuristics that start from the tour of Suurballe's heuristic
-/

namespace Pctsp

section paths

variable {F V W : Type} [LinearOrder V] [LinearOrder W] {A : DiGraph W} {tail head : V → W} {names : SplitNames V W} {dij : DijkstraOut W} {depth : Nat}
  {T : STree W} {st : SState W}

/-- **C138.** On the same disjoint paths: whenever Suurballe's heuristic finds a tour, path extension and collapse returns a feasible tour that costs no more,
and extension and collapse a feasible tour. -/
theorem C138_same_paths {env : LabEnv F V} {G : LabGraph V} {w : V → V → Int} {π : V → Int} {root : V} (hG : G.Ok w π) (hE : env.Ok G π root)
    (hS : SuurballeOn G.nx w A tail head names root dij depth T st) (hl : root ∉ G.nx.adj root) {m : List (V × (List V × List V))}
    (hm : undirectedVertexDisjointPathsMap names T st (treeNodes (head root) dij) = .ok m) (quota : Int) (cp : Option Bool) (dl ss : Option Int)
    {es : List (V × V)} (h : runHeuristic env G quota root .suurballesHeuristic (vertexDisjointCostMap names T st (treeNodes (head root) dij)) m cp dl ss = .ok es)
    (hes : es ≠ []) :
    ∃ t ec pec, es = consec t ∧ FeasibleIn G.edges π quota root t ∧
      runHeuristic env G quota root .suurballesPathExtensionCollapse (vertexDisjointCostMap names T st (treeNodes (head root) dij)) m cp dl ss
        = .ok (consec pec) ∧ FeasibleIn G.edges π quota root pec ∧ namedCost w pec ≤ namedCost w t ∧
      runHeuristic env G quota root .suurballesExtensionCollapse (vertexDisjointCostMap names T st (treeNodes (head root) dij)) m cp dl ss
        = .ok (consec ec) ∧ FeasibleIn G.edges π quota root ec := by
  have hne : vertexDisjointCostMap names T st (treeNodes (head root) dij) ≠ [] ∧ m ≠ [] := by
    constructor <;> intro e <;> rw [(C91_errors env G quota root _ _ cp dl ss).2 .suurballesHeuristic (by simp) (by simp [e])] at h <;> cases h
  obtain ⟨m', t, h1, h2, -, h3, -⟩ := suurballes_found hG hE hS hl quota
  obtain rfl : m' = m := by rw [hm] at h1; exact (Res.ok.inj h1).symm
  have hrun := runHeuristic_of_first (small := []) (cp := cp) (dl := dl) (ss := ss) (alg := .suurballesHeuristic) hE (fun _ => hne) rfl h2
  rw [hrun] at h
  obtain rfl := Res.ok.inj h
  obtain ⟨-, i1, hf, -⟩ := h3 (by rintro rfl; exact hes rfl)
  have hlen := hf.three
  obtain ⟨long, ec, -, -, j3, j4, j5, -, j7, j8⟩ := runExtensionCollapse_spec hG hE quota hf.tour
  obtain ⟨pec, e1, e2⟩ := C52_path_extension_collapse env.float hE.signSound G.edges G.costs G.prizes w π hG.describes hG.prizes root _ hf.tour quota
    (cp.getD false) (fun _ => hG.costs) env.pick0 env.picks hE.pick0 hE.picks (orDefault dl G.nx.nodes.length) (orDefault ss 10)
  rcases e2 with ⟨-, e2⟩ | ⟨e2, e3, e4, e5⟩
  · exact absurd hf.prize (not_le.2 e2)
  · exact ⟨t, ec, pec, rfl, hf, runHeuristic_of_first hE (fun _ => hne) i1 e1, ⟨e2, e5 hlen, e3⟩, e4 hf.prize,
      runHeuristic_of_first hE (fun _ => hne) i1 j4, ⟨j5, j8 hlen, j7 (hf.prize.trans j3)⟩⟩

end paths

section runs

variable {V : Type} [DecidableEq V] {G : LabGraph V} {w : V → V → Int} {π : V → Int} {root : V} {flags : PreprocessFlags} {quota : Int} {mp : ModelParams}
  {s : Option ScipStatus} {r : LabResult V}

/-- What a run of the two heuristics reports if Suurballe's heuristic would find a tour. -/
theorem VialRun.variants_tour (hG : G.Ok w π) (hno : ∀ e ∈ G.edges, e.1 ≠ e.2) (hc : ∃ vs, NxCycle G.nx vs ∧ root ∈ vs) (hh : mp.isHeuristic = true)
    (ha : mp.algorithm = .suurballesExtensionCollapse ∨ mp.algorithm = .suurballesPathExtensionCollapse) (R : VialRun flags G w π quota root mp s r) :
    ∃ t, (t ≠ [] → FeasibleIn G.edges π quota root t ∧ (∃ v ∈ t, v ≠ root ∧ ∀ c, TourThrough G.nx w root v c → namedCost w t ≤ c) ∧
        ∃ t', FeasibleIn G.edges π quota root t' ∧ Reports w π t' r ∧
          (mp.algorithm = .suurballesPathExtensionCollapse → namedCost w t' ≤ namedCost w t) ∧
          ∀ (S : V → Prop) (c : V), OnlyGate (AdjIn G.edges) S c → (∀ x ∈ t, S x) → ∀ x ∈ t', S x) ∧
      ∀ v c, v ≠ root → TourThrough G.nx w root v c → (∀ c', TourThrough G.nx w root v c' → c ≤ c') → c < maxsize →
        (∀ l, NxCycle G.nx (root :: l) → v ∈ l → namedCost w (root :: (l ++ [root])) = c → quota ≤ namedPrize π (root :: (l ++ [root]))) →
        t ≠ [] ∧ namedCost w t ≤ c := by
  letI := R.ord
  obtain ⟨m, t, hm, hne, hmne, -, h2, h3⟩ := R.suurballes_first hG hno hc hh (by rcases ha with ha | ha <;> rw [ha] <;> rfl)
  obtain ⟨c1, c2, c3, c4⟩ := C99_ok hG R.preprocessed hc
  refine ⟨t, fun ht => ?_, h3⟩
  obtain ⟨hinit, hf, hv⟩ := h2 ht
  have hgate : ∀ (S : V → Prop) (c : V), OnlyGate (AdjIn G.edges) S c → OnlyGate (AdjIn (G.restrict R.h).edges) S c := fun S c hg u v huv =>
    hg u v (huv.imp (fun h => (List.mem_filter.1 h).1) (fun h => (List.mem_filter.1 h).1))
  refine ⟨(C99_tours hG R.preprocessed quota t).1 hf, hv, ?_⟩
  have htour := hf.tour
  have hlen := hf.three
  rcases ha with ha | ha
  · obtain ⟨long, t', k1, k2, k3, k4, k5, k6, k7, k8⟩ := runExtensionCollapse_spec c1 R.envOk quota htour
    have hes := runHeuristic_of_first (cp := none) (dl := mp.depthLimit) (ss := mp.stepSize) (alg := .suurballesExtensionCollapse)
      (costMap := vertexDisjointCostMap R.names R.T R.st (treeNodes (R.head root) R.dij)) (pathsMap := m) R.envOk (fun _ => ⟨hne, hmne⟩) hinit k4
    have hrep := (R.reports_of hG hno hc hh hm (t := t') (by rw [ha]; exact hes) (.inr k5)).2 (by obtain ⟨_, rfl⟩ := k5.shape; simp)
    refine ⟨t', (C99_tours hG R.preprocessed quota t').1 ⟨k5, k8 hlen, k7 (hf.prize.trans k3)⟩, hrep, by simp [ha], fun S c hg hin => ?_⟩
    simp only [runExtensionCollapse, extensionUnitaryGainCollapsePy, k1, Res.ok_bind] at k4
    obtain ⟨_, -, k4⟩ := Res.bind_eq_ok.1 k4
    have hlong := C136_stay R.env.float R.envOk.signSound R.envOk.strict _ _ c1.describes c1.prizes (hgate S c hg) root _ htour (by omega) hin quota 0 0 false
      R.env.pick R.env.picks R.envOk.pick R.envOk.picks long (.inr (.inr (.inl k1)))
    have hll : 3 ≤ long.length := by
      obtain ⟨⟨long', j1, -, -, -, j2⟩, -⟩ := C52_extension_gain R.env.float R.envOk.strict R.envOk.divSign _ _ _ w π c1.describes c1.prizes root _ htour quota
      rw [k1] at j1
      cases j1
      omega
    exact C136_stay R.env.float R.envOk.signSound R.envOk.strict _ _ c1.describes c1.prizes (hgate S c hg) root _ k2 hll hlong quota 0 0 false
      R.env.pick R.env.picks R.envOk.pick R.envOk.picks t' (.inr (.inr (.inr (.inr (.inl k4)))))
  · obtain ⟨t', k1, k2⟩ := C52_path_extension_collapse R.env.float R.envOk.signSound _ _ _ w π c1.describes c1.prizes root _ htour quota
      false (fun _ => c1.costs) R.env.pick0 R.env.picks R.envOk.pick0 R.envOk.picks (orDefault mp.depthLimit (G.restrict R.h).nx.nodes.length)
      (orDefault mp.stepSize 10)
    have hes := runHeuristic_of_first (cp := none) (dl := mp.depthLimit) (ss := mp.stepSize) (alg := .suurballesPathExtensionCollapse)
      (costMap := vertexDisjointCostMap R.names R.T R.st (treeNodes (R.head root) R.dij)) (pathsMap := m) R.envOk (fun _ => ⟨hne, hmne⟩) hinit k1
    rcases k2 with ⟨-, k2⟩ | ⟨j1, j2, j3, j4⟩
    · exact absurd hf.prize (not_le.2 k2)
    · have hrep := (R.reports_of hG hno hc hh hm (t := t') (by rw [ha]; exact hes) (.inr j1)).2 (by obtain ⟨_, rfl⟩ := j1.shape; simp)
      refine ⟨t', (C99_tours hG R.preprocessed quota t').1 ⟨j1, j4 hlen, j2⟩, hrep, fun _ => j3 hf.prize, fun S c hg hin => ?_⟩
      exact C136_stay R.env.float R.envOk.signSound R.envOk.strict _ _ c1.describes c1.prizes (hgate S c hg) root _ htour (by omega) hin quota _ _ false
        R.env.pick0 R.env.picks R.envOk.pick0 R.envOk.picks t' (.inr (.inr (.inr (.inr (.inr k1)))))

/-- **C138.** The guarantee of C128 carries over: if all the cheapest tours through the root and some other vertex meet the quota, and cost less than
`sys.maxsize`, both heuristics report a feasible tour, and that of path extension and collapse costs no more than these. -/
theorem C138_bound (hG : G.Ok w π) (hno : ∀ e ∈ G.edges, e.1 ≠ e.2) (hh : mp.isHeuristic = true)
    (ha : mp.algorithm = .suurballesExtensionCollapse ∨ mp.algorithm = .suurballesPathExtensionCollapse)
    (R : VialRun flags G w π quota root mp s r) {v : V} {t : List V} (hv : v ∈ t) (hr : v ≠ root) (ht : FeasibleIn G.edges π quota root t)
    (hlt : namedCost w t < maxsize)
    (hmin : ∀ q t', FeasibleIn G.edges π q root t' → v ∈ t' → namedCost w t ≤ namedCost w t' ∧ (namedCost w t' = namedCost w t → quota ≤ namedPrize π t')) :
    ∃ t', FeasibleIn G.edges π quota root t' ∧ Reports w π t' r ∧ (mp.algorithm = .suurballesPathExtensionCollapse → namedCost w t' ≤ namedCost w t) := by
  obtain ⟨l, rfl, hl, hq⟩ := (feasibleIn_iff hG.wf hG.adj).1 ht
  have hvl : v ∈ l := by simpa [hr] using hv
  obtain ⟨t', h2, h3⟩ := R.variants_tour hG hno ⟨_, hl, by simp⟩ hh ha
  have hf : ∀ l', NxCycle G.nx (root :: l') → FeasibleIn G.edges π (namedPrize π (root :: (l' ++ [root]))) root (root :: (l' ++ [root])) :=
    fun l' h => (feasibleIn_iff hG.wf hG.adj).2 ⟨l', rfl, h, le_rfl⟩
  obtain ⟨h4, h5⟩ := h3 v (namedCost w (root :: (l ++ [root]))) hr ⟨l, hl, by simp [hvl], rfl⟩ (by
    rintro c' ⟨l', k1, k2, rfl⟩
    exact (hmin _ _ (hf l' k1) (by simpa [hr] using k2)).1) hlt (fun l' k1 k2 k3 => (hmin _ _ (hf l' k1) (by simp [k2])).2 k3)
  obtain ⟨-, -, t'', k1, k2, k3, -⟩ := h2 h4
  exact ⟨t'', k1, k2, fun e => (k3 e).trans h5⟩

/-- **C138.** If every tour from the root meets the quota, and one of them costs less than `sys.maxsize`, extension and collapse from the tour of Suurballe's
heuristic reports a feasible tour, and path extension and collapse from it reports an optimal one. -/
theorem C138_optimal (hG : G.Ok w π) (hno : ∀ e ∈ G.edges, e.1 ≠ e.2) (hh : mp.isHeuristic = true)
    (ha : mp.algorithm = .suurballesExtensionCollapse ∨ mp.algorithm = .suurballesPathExtensionCollapse)
    (R : VialRun flags G w π quota root mp s r) (hall : ∀ q t, FeasibleIn G.edges π q root t → quota ≤ namedPrize π t)
    (hex : ∃ q t, FeasibleIn G.edges π q root t ∧ namedCost w t < maxsize) :
    ∃ t, FeasibleIn G.edges π quota root t ∧ Reports w π t r ∧
      (mp.algorithm = .suurballesPathExtensionCollapse → ∀ t', FeasibleIn G.edges π quota root t' → namedCost w t ≤ namedCost w t') := by
  have hup : ∀ q t, FeasibleIn G.edges π q root t → FeasibleIn G.edges π quota root t := fun q t h => ⟨h.tour, h.three, hall q t h⟩
  have hw : ∀ t, 0 ≤ namedCost w t := fun t => List.sum_nonneg (by
    simp only [List.mem_map]
    rintro _ ⟨p, -, rfl⟩
    exact hG.costs _ _)
  obtain ⟨q₀, t₀, h0, hlt⟩ := hex
  obtain ⟨_, ⟨t, ht, rfl⟩, hmin⟩ := Int.exists_least_of_bdd (P := fun z => ∃ t, FeasibleIn G.edges π quota root t ∧ namedCost w t = z)
    ⟨0, by rintro _ ⟨t, -, rfl⟩; exact hw t⟩ ⟨_, t₀, hup _ _ h0, rfl⟩
  have hmin' : ∀ t', FeasibleIn G.edges π quota root t' → namedCost w t ≤ namedCost w t' := fun t' h => hmin _ ⟨t', h, rfl⟩
  obtain ⟨l, rfl, hl, -⟩ := (feasibleIn_iff hG.wf hG.adj).1 ht
  match l, hl with
  | [], hl => have := hl.long; simp at this
  | v :: l, hl =>
    have hv : v ≠ root := fun e => by have := hl.nodup; simp [e] at this
    obtain ⟨t', k1, k2, k3⟩ := C138_bound hG hno hh ha R (v := v) (by simp) hv ht (lt_of_le_of_lt (hmin' _ (hup _ _ h0)) hlt)
      (fun q t' h _ => ⟨hmin' _ (hup _ _ h), fun _ => hall _ _ h⟩)
    exact ⟨t', k1, k2, fun e t'' h => (k3 e).trans (hmin' t'' h)⟩

end runs

section exist

variable {V : Type} [LinearOrder V] {G : LabGraph V} {w : V → V → Int} {π : V → Int} {root : V}

/-- Under the condition of the guarantee the two heuristics have runs.  In this run of extension and collapse the arithmetic is exact. -/
theorem exists_variant (hG : G.Ok w π) (hno : ∀ e ∈ G.edges, e.1 ≠ e.2) {quota : Int} {flags : PreprocessFlags}
    (hf : flags.shortestPathCutoff = false ∧ flags.disjointPathCutoff = false) {mp : ModelParams} (hh : mp.isHeuristic = true)
    (ha : mp.algorithm = .suurballesExtensionCollapse ∨ mp.algorithm = .suurballesPathExtensionCollapse)
    {v : V} {t : List V} (hv : v ∈ t) (hr : v ≠ root) (ht : FeasibleIn G.edges π quota root t) (hlt : namedCost w t < maxsize)
    (hmin : ∀ q t', FeasibleIn G.edges π q root t' → v ∈ t' → namedCost w t ≤ namedCost w t' ∧ (namedCost w t' = namedCost w t → quota ≤ namedPrize π t')) :
    ∃ r, Nonempty (VialRun flags G w π quota root mp none r) ∧
      (mp.algorithm = .suurballesExtensionCollapse → ∃ h small long t', Preprocessed reachedFrom commonCycles (G.nx.nodes.length + 1) flags G.nx root h ∧
        FeasibleIn G.edges π quota root small ∧ namedCost w small ≤ namedCost w t ∧
        extensionUnitaryGainBind FloatOps.ieeeExact (G.restrict h).edges small (G.restrict h).costs (G.restrict h).prizes = .ok long ∧
        IsTourIn (G.restrict h).edges root long ∧
        collapseBind (G.restrict h).edges long (G.restrict h).costs (G.restrict h).prizes quota root false (fun _ => exPick) = .ok t' ∧ Reports w π t' r) := by
  obtain ⟨l, rfl, hl, hq⟩ := (feasibleIn_iff hG.wf hG.adj).1 ht
  have hvl : v ∈ l := by simpa [hr] using hv
  have hc : ∃ vs, NxCycle G.nx vs ∧ root ∈ vs := ⟨_, hl, by simp⟩
  obtain ⟨h, hrun⟩ := (C70_outcomes reachedFrom commonCycles (G.nx.nodes.length + 1) flags G.nx root).2.2 hf.1 hf.2 (fun _ => hl.inside _ (by simp)) (by omega)
  have hp : Preprocessed reachedFrom commonCycles (G.nx.nodes.length + 1) flags G.nx root h :=
    ⟨reachedFrom_component _ _, fun g' _ => commonCycles_bicomponents g', hrun⟩
  obtain ⟨h1, h2, h3, h4⟩ := C99_ok hG hp hc
  have hno' : ∀ e ∈ (G.restrict h).edges, e.1 ≠ e.2 := fun e he => hno e (List.mem_filter.1 he).1
  obtain ⟨dij, depth, T, st, hS⟩ := exists_suurballeOn (U := h) h1.wf (cost := w) (fun u v _ => h1.describes.symm u v) (fun u v _ => h1.costs u v) root
  have hE : (exactEnv (G.restrict h) π quota root).Ok (G.restrict h) π root := { plainEnv_ok h1 h3 with isYes := fun _ => ⟨_, rfl⟩ }
  have hY : (exactEnv (G.restrict h) π quota root).YesSound (G.restrict h) π quota root := fun ps hps => by
    classical exact of_decide_eq_true (Res.ok.inj hps)
  obtain ⟨scip, hscip⟩ := exists_scip_keeps 1 List.range
  have hl0 : root ∉ (G.restrict h).nx.adj root := fun hl => by
    rcases (h1.adj root root).1 hl with hl | hl <;> exact hno' _ hl rfl
  obtain ⟨m, small, hm, -, k0, k1, k2⟩ := suurballes_found h1 hE hS hl0 quota
  have hback : ∀ l', NxCycle (G.restrict h).nx (root :: l') →
      FeasibleIn G.edges π (namedPrize π (root :: (l' ++ [root]))) root (root :: (l' ++ [root])) := fun l' hl' =>
    (C99_tours hG hp _ _).1 ((feasibleIn_iff h1.wf h1.adj).2 ⟨l', rfl, hl', le_rfl⟩)
  obtain ⟨k3, k4⟩ := k2 v (namedCost w (root :: (l ++ [root]))) hr (by
    obtain ⟨l', e, hl', -⟩ := (feasibleIn_iff h1.wf h1.adj).1 ((C99_tours hG hp quota _).2 ht)
    rw [e]
    refine ⟨l', hl', ?_, rfl⟩
    rw [e] at hv
    simpa [hr] using hv) (by
      rintro c' ⟨l', j1, j2, rfl⟩
      exact (hmin _ _ (hback l' j1) (by simpa [hr] using j2)).1) hlt (fun l' j1 j2 j3 => (hmin _ _ (hback l' j1) (by simp [j2])).2 j3)
  obtain ⟨hne, hinit, hfs, -⟩ := k1 k3
  have hmne : m ≠ [] := fun e => hne (k0 e)
  have mk : ∀ t', runHeuristic (exactEnv (G.restrict h) π quota root) (G.restrict h) quota root mp.algorithm
      (vertexDisjointCostMap splitNames T st (treeNodes (headOf root) dij)) m none mp.depthLimit mp.stepSize = .ok (consec t') →
      IsTourIn (G.restrict h).edges root t' → ∃ r, Nonempty (VialRun flags G w π quota root mp none r) ∧ Reports w π t' r := by
    intro t' j1 j2
    obtain ⟨r, r1, -, r3⟩ := C92_heuristic h1 hno' hS hm (reorder := fun _ => none) reorderOk_none hh scip List.range j1 (.inr j2)
    refine ⟨r, ⟨⟨Ext, SplitV V, exactEnv (G.restrict h) π quota root, reachedFrom, commonCycles, G.nx.nodes.length + 1, h, splitGraph h w, tailOf, headOf,
      splitNames, dij, depth, T, st, scip, List.range, fun _ => none, hp, hE, hY, hS, reorderOk_none, fun n => List.Perm.refl _, fun P => (hscip P).1, ?_⟩⟩,
      r3 (by obtain ⟨_, rfl⟩ := j2.shape; simp)⟩
    simp only [runVial, hp.run, Res.ok_bind, if_pos h3, r1]
  rcases ha with ha | ha
  · obtain ⟨long, t', j1, j2, -, j4, j5, -⟩ := runExtensionCollapse_spec h1 hE quota hfs.tour
    have hes := runHeuristic_of_first (cp := none) (dl := mp.depthLimit) (ss := mp.stepSize) (alg := .suurballesExtensionCollapse) hE
      (fun _ => ⟨hne, hmne⟩) hinit j4
    obtain ⟨r, r1, r2⟩ := mk t' (by rw [ha]; exact hes) j5
    refine ⟨r, r1, fun _ => ⟨h, small, long, t', hp, (C99_tours hG hp quota small).1 hfs, k4, j1, j2, ?_, r2⟩⟩
    simp only [runExtensionCollapse, extensionUnitaryGainCollapsePy, j1, Res.ok_bind] at j4
    obtain ⟨_, -, j4⟩ := Res.bind_eq_ok.1 j4
    exact j4
  · obtain ⟨t', j1, j2⟩ := C52_path_extension_collapse FloatOps.ieeeExact hE.signSound _ _ _ w π h1.describes h1.prizes root _ hfs.tour quota
      false (fun _ => h1.costs) (fun _ => exPick) (fun _ _ => exPick) hE.pick0 hE.picks (orDefault mp.depthLimit (G.restrict h).nx.nodes.length)
      (orDefault mp.stepSize 10)
    have hes := runHeuristic_of_first (cp := none) (dl := mp.depthLimit) (ss := mp.stepSize) (alg := .suurballesPathExtensionCollapse) hE
      (fun _ => ⟨hne, hmne⟩) hinit j1
    rcases j2 with ⟨-, j2⟩ | ⟨j2, -⟩
    · exact absurd hfs.prize (not_le.2 j2)
    · obtain ⟨r, r1, -⟩ := mk t' (by rw [ha]; exact hes) j2
      exact ⟨r, r1, by simp [ha]⟩

end exist

/-! ## No constant factor -/

/-- Two cheap triangles with a common edge, and a dear triangle, that meet at the root. -/
def wingEdges : List (Fin 6 × Fin 6) := [(0, 1), (1, 2), (0, 2), (2, 3), (0, 3), (0, 4), (4, 5), (5, 0)]
def wingCost (K : Nat) (x y : Fin 6) : Int := if 4 ≤ x ∨ 4 ≤ y then 4 * K + 1 else 1
def wingPrize (x : Fin 6) : Int := if 4 ≤ x then 2 else 1
def wingLab (K : Nat) : LabGraph (Fin 6) := labGraph wingEdges (wingCost K) wingPrize

/-- The vertices of the dear triangle. -/
def inWing (x : Fin 6) : Prop := x = 0 ∨ 4 ≤ x

instance (x : Fin 6) : Decidable (inWing x) := inferInstanceAs (Decidable (x = 0 ∨ 4 ≤ x))

/-- The numbers of dear and of other edges of a walk. -/
def wingCount (t : List (Fin 6)) : Nat × Nat :=
  ((consec t).countP fun p => 4 ≤ p.1 ∨ 4 ≤ p.2, (consec t).countP fun p => ¬ (4 ≤ p.1 ∨ 4 ≤ p.2))

theorem wingLab_ok (K : Nat) : (wingLab K).Ok (wingCost K) wingPrize :=
  labGraph_ok (by decide) (fun x y => by simp only [wingCost, or_comm]) (by decide) (by decide) (fun x y => by unfold wingCost; split <;> omega)

theorem wing_cost (K : Nat) (t : List (Fin 6)) : namedCost (wingCost K) t = (4 * K + 1) * (wingCount t).1 + (wingCount t).2 := by
  simp only [namedCost, wingCount]
  induction consec t with
  | nil => simp
  | cons p l ih =>
    rw [List.map_cons, List.sum_cons, ih, List.countP_cons, List.countP_cons]
    by_cases h : 4 ≤ p.1 ∨ 4 ≤ p.2
    · simp [wingCost, h]; ring
    · simp [wingCost, h]; ring

/-- What is to be checked of a tour of this graph. -/
def wingCheck (t : List (Fin 6)) : Bool :=
  !((consec t).all fun p => decide (AdjIn wingEdges p.1 p.2)) || !decide t.dropLast.Nodup ||
    if t.any (decide <| 4 ≤ ·) then t.all (decide <| inWing ·) && decide (4 ∈ t) && decide (wingCount t = (3, 0)) && decide (4 ≤ namedPrize wingPrize t)
    else decide ((wingCount t).1 = 0) && (!decide (4 ≤ namedPrize wingPrize t) || decide (4 ≤ (wingCount t).2))

/-- The tours of the graph. -/
theorem wing_tours {t : List (Fin 6)} {q : Int} (ht : FeasibleIn wingEdges wingPrize q 0 t) :
    ((∃ x ∈ t, 4 ≤ x) → (∀ x ∈ t, inWing x) ∧ 4 ∈ t ∧ wingCount t = (3, 0) ∧ 4 ≤ namedPrize wingPrize t) ∧
    ((¬ ∃ x ∈ t, 4 ≤ x) → (wingCount t).1 = 0 ∧ (4 ≤ namedPrize wingPrize t → 4 ≤ (wingCount t).2)) := by
  obtain ⟨⟨⟨m, rfl⟩, hn, hw⟩, h3, -⟩ := ht
  have hlen : m.length ≤ 5 := by
    rw [← List.cons_append, List.dropLast_concat] at hn
    have := hn.length_le_card
    simp at this
    omega
  have key : wingCheck (0 :: (m ++ [0])) = true := by
    clear hn hw
    match m, hlen with
    | [], _ => simp at h3
    | [a], _ => simp at h3
    | [a, b], _ => clear h3; revert a b; decide +kernel
    | [a, b, c], _ => clear h3; revert a b c; decide +kernel
    | [a, b, c, d], _ => clear h3; revert a b c d; decide +kernel
    | [a, b, c, d, e], _ => clear h3; revert a b c d e; decide +kernel
  have h1 : ((consec (0 :: (m ++ [0]))).all fun p => decide (AdjIn wingEdges p.1 p.2)) = true := List.all_eq_true.2 fun p hp => decide_eq_true (hw p hp)
  rw [wingCheck, h1, decide_eq_true hn] at key
  simp only [Bool.not_true, Bool.false_or] at key
  by_cases hx : ∃ x ∈ 0 :: (m ++ [0]), 4 ≤ x
  · rw [if_pos (by obtain ⟨x, h, h'⟩ := hx; exact List.any_eq_true.2 ⟨x, h, decide_eq_true h'⟩)] at key
    simp only [Bool.and_eq_true, decide_eq_true_eq, List.all_eq_true] at key
    exact ⟨fun _ => ⟨key.1.1.1, key.1.1.2, key.1.2, key.2⟩, fun h => absurd hx h⟩
  · rw [if_neg (by
      intro h
      obtain ⟨x, h, h'⟩ := List.any_eq_true.1 h
      exact hx ⟨x, h, of_decide_eq_true h'⟩)] at key
    simp only [Bool.and_eq_true, Bool.or_eq_true, Bool.not_eq_true', decide_eq_true_eq, decide_eq_false_iff_not] at key
    exact ⟨fun h => absurd h hx, fun _ => ⟨key.1, fun h => key.2.resolve_left fun h' => h' h⟩⟩

theorem wing_simple : ∀ e ∈ wingEdges, e.1 ≠ e.2 := by decide
theorem wing_gate : OnlyGate (AdjIn wingEdges) inWing 0 := by unfold OnlyGate; decide +kernel
theorem wing_optimal : FeasibleIn wingEdges wingPrize 4 0 [0, 1, 2, 3, 0] := ⟨⟨⟨[1, 2, 3], rfl⟩, by decide, by decide⟩, by decide, by decide⟩
theorem wing_first : FeasibleIn wingEdges wingPrize 3 0 [0, 1, 2, 0] := ⟨⟨⟨[1, 2], rfl⟩, by decide, by decide⟩, by decide, by decide⟩
theorem wing_second : FeasibleIn wingEdges wingPrize 3 0 [0, 2, 3, 0] := ⟨⟨⟨[2, 3], rfl⟩, by decide, by decide⟩, by decide, by decide⟩
theorem wing_dear : FeasibleIn wingEdges wingPrize 4 0 [0, 4, 5, 0] := ⟨⟨⟨[4, 5], rfl⟩, by decide, by decide⟩, by decide, by decide⟩

/-- **C138.** There is no constant factor.  For every number that is not astronomic there is an instance with a feasible tour of cost 4 on which both heuristics
always return, and whatever they report is a feasible tour that costs more than that number times 4. -/
theorem C138_factor (K : Nat) (hK : 12 * (K : Int) + 3 < maxsize) :
    ∃ (G : LabGraph (Fin 6)) (w : Fin 6 → Fin 6 → Int) (π : Fin 6 → Int) (t : List (Fin 6)), G.Ok w π ∧ (∀ e ∈ G.edges, e.1 ≠ e.2) ∧
      FeasibleIn G.edges π 4 0 t ∧ namedCost w t = 4 ∧
      ∀ flags mp, flags.shortestPathCutoff = false ∧ flags.disjointPathCutoff = false → mp.isHeuristic = true →
        mp.algorithm = .suurballesExtensionCollapse ∨ mp.algorithm = .suurballesPathExtensionCollapse →
        (∃ r, Nonempty (VialRun flags G w π 4 0 mp none r)) ∧
        ∀ s r, VialRun flags G w π 4 0 mp s r → ∃ t', FeasibleIn G.edges π 4 0 t' ∧ Reports w π t' r ∧ K * 4 < r.objective := by
  have hc4 : namedCost (wingCost K) [0, 4, 5, 0] = 12 * K + 3 := by
    rw [wing_cost, show wingCount [0, 4, 5, 0] = (3, 0) by decide]
    push_cast; ring
  have hopt : namedCost (wingCost K) [0, 1, 2, 3, 0] = 4 := by
    rw [wing_cost, show wingCount [0, 1, 2, 3, 0] = (0, 4) by decide]
    simp
  have hmin : ∀ q t', FeasibleIn (wingLab K).edges wingPrize q 0 t' → 4 ∈ t' → namedCost (wingCost K) t' = 12 * K + 3 ∧ 4 ≤ namedPrize wingPrize t' := by
    intro q t' ht' h4
    obtain ⟨-, -, j2, j3⟩ := (wing_tours ht').1 ⟨4, h4, by decide⟩
    refine ⟨?_, j3⟩
    rw [wing_cost, j2]
    push_cast; ring
  have hmin' : ∀ q t', FeasibleIn (wingLab K).edges wingPrize q 0 t' → 4 ∈ t' → namedCost (wingCost K) [0, 4, 5, 0] ≤ namedCost (wingCost K) t' ∧
      (namedCost (wingCost K) t' = namedCost (wingCost K) [0, 4, 5, 0] → 4 ≤ namedPrize wingPrize t') := by
    intro q t' ht' h4
    obtain ⟨j1, j2⟩ := hmin q t' ht' h4
    exact ⟨by rw [j1, hc4], fun _ => j2⟩
  have hthrough : ∀ t, FeasibleIn (wingLab K).edges wingPrize 3 0 t → wingCount t = (0, 3) → ∀ v ∈ t, TourThrough (wingLab K).nx (wingCost K) 0 v 3 := by
    intro t ht h1 v hv
    obtain ⟨m, rfl, hm, -⟩ := (feasibleIn_iff (wingLab_ok K).wf (wingLab_ok K).adj).1 ht
    refine ⟨m, hm, ?_, (wing_cost K _).trans ?_⟩
    · rw [← List.cons_append, List.mem_append] at hv
      exact hv.elim id fun h => by simp at h; simp [h]
    · rw [h1]; simp
  have hdear : FeasibleIn (wingLab K).edges wingPrize 4 0 [0, 4, 5, 0] := wing_dear
  refine ⟨wingLab K, wingCost K, wingPrize, [0, 1, 2, 3, 0], wingLab_ok K, wing_simple, wing_optimal, hopt, fun flags mp hf hh ha => ⟨?_, fun s r R => ?_⟩⟩
  · obtain ⟨r, h, -⟩ := exists_variant (wingLab_ok K) wing_simple hf hh ha (v := 4) (by decide) (by decide) hdear (by rw [hc4]; exact hK) hmin'
    exact ⟨r, h⟩
  · obtain ⟨m, hm, hm', -⟩ := (feasibleIn_iff (wingLab_ok K).wf (wingLab_ok K).adj).1 hdear
    obtain ⟨t, h2, h3⟩ := R.variants_tour (wingLab_ok K) wing_simple ⟨_, hm', by simp⟩ hh ha
    obtain ⟨hne, -⟩ := h3 4 (12 * K + 3) (by decide) ⟨m, hm', by
        have : (4 : Fin 6) ∈ 0 :: (m ++ [0]) := by rw [← hm]; decide
        simpa using this, by rw [← hm]; exact hc4⟩ (by
      rintro c' ⟨l, hl, h4, rfl⟩
      exact (hmin _ _ ((feasibleIn_iff (wingLab_ok K).wf (wingLab_ok K).adj).2 ⟨l, rfl, hl, le_rfl⟩) (by simpa using h4)).1.ge) hK (fun l hl h4 _ =>
        (hmin _ _ ((feasibleIn_iff (wingLab_ok K).wf (wingLab_ok K).adj).2 ⟨l, rfl, hl, le_rfl⟩) (by simp [h4])).2)
    obtain ⟨k1, ⟨v, hv, hv0, k2⟩, t', k3, k4, -, k5⟩ := h2 hne
    have hin : ∃ x ∈ t, 4 ≤ x := by
      by_contra hno
      obtain ⟨i1, i2⟩ := (wing_tours k1).2 hno
      have i3 := i2 k1.prize
      have hv4 : ¬ 4 ≤ v := fun h => hno ⟨v, hv, h⟩
      have : TourThrough (wingLab K).nx (wingCost K) 0 v 3 := by
        by_cases hv3 : v = 3
        · exact hthrough [0, 2, 3, 0] wing_second (by decide) v (by simp [hv3])
        · refine hthrough [0, 1, 2, 0] wing_first (by decide) v ?_
          clear * - hv0 hv4 hv3
          revert v
          decide
      have := k2 3 this
      rw [wing_cost, i1] at this
      push_cast at this
      omega
    have hstay := k5 inWing 0 wing_gate ((wing_tours k1).1 hin).1
    have hin' : ∃ x ∈ t', 4 ≤ x := by
      obtain ⟨⟨⟨m, rfl⟩, hn, hw⟩, h3, -⟩ := k3
      match m with
      | [] => simp at h3
      | a :: m =>
        refine ⟨a, by simp, (hstay a (by simp)).resolve_left ?_⟩
        rintro rfl
        simp [List.dropLast] at hn
    obtain ⟨-, -, i1, -⟩ := (wing_tours k3).1 hin'
    refine ⟨t', k3, k4, ?_⟩
    rw [k4.objective, wing_cost, i1]
    push_cast
    omega

/-! ## Extension and collapse can be arbitrarily dearer -/

/-- A cheap cycle of four vertices, with a vertex and a path at one of its edges. -/
def handleEdges : List (Fin 7 × Fin 7) := [(0, 1), (1, 2), (2, 3), (3, 0), (0, 4), (4, 1), (0, 5), (5, 6), (6, 1)]
def handleCost (K : Nat) (x y : Fin 7) : Int := if 4 ≤ x ∨ 4 ≤ y then 4 * K + 5 else 1
def handleLab (K : Nat) : LabGraph (Fin 7) := labGraph handleEdges (handleCost K) (fun _ => 1)

theorem handleLab_ok (K : Nat) : (handleLab K).Ok (handleCost K) (fun _ => 1) :=
  labGraph_ok (by decide) (fun x y => by simp only [handleCost, or_comm]) (by decide) (fun _ => by decide) (fun x y => by unfold handleCost; split <;> omega)

theorem handle_simple : ∀ e ∈ handleEdges, e.1 ≠ e.2 := by decide
theorem handle_cheap : FeasibleIn handleEdges (fun _ => 1) 3 0 [0, 1, 2, 3, 0] := ⟨⟨⟨[1, 2, 3], rfl⟩, by decide, by decide⟩, by decide, by decide⟩

theorem handle_cycles (K : Nat) : NxCycle (handleLab K).nx [0, 1, 2, 3] ∧ NxCycle (handleLab K).nx [0, 4, 1] ∧ NxCycle (handleLab K).nx [0, 5, 6, 1] :=
  show NxCycle (handleLab 0).nx [0, 1, 2, 3] ∧ NxCycle (handleLab 0).nx [0, 4, 1] ∧ NxCycle (handleLab 0).nx [0, 5, 6, 1] from
    ⟨⟨by decide, by decide, by decide, by unfold NxWalk; decide +kernel⟩, ⟨by decide, by decide, by decide, by unfold NxWalk; decide +kernel⟩,
      ⟨by decide, by decide, by decide, by unfold NxWalk; decide +kernel⟩⟩

/-- A walk through one of the other vertices is dear. -/
theorem handle_dear (K : Nat) {t : List (Fin 7)} (ht : 2 ≤ t.length) (hx : ∃ x ∈ t, 4 ≤ x) : 4 * (K : Int) + 5 ≤ namedCost (handleCost K) t := by
  obtain ⟨x, hx, h4⟩ := hx
  have hpair : ∃ p ∈ consec t, x = p.1 ∨ x = p.2 := by
    clear h4
    induction t with
    | nil => cases hx
    | cons a t ih =>
      match t, ht with
      | b :: t, _ =>
        rcases List.mem_cons.1 hx with rfl | hx
        · exact ⟨(x, b), by simp [consec], .inl rfl⟩
        · match t, hx with
          | [], hx => exact ⟨(a, b), by simp [consec], .inr (by simpa using hx)⟩
          | c :: t, hx =>
            obtain ⟨p, hp, h⟩ := ih (by simp) hx
            exact ⟨p, by simp only [consec, List.tail_cons, List.zip_cons_cons, List.mem_cons] at hp ⊢; exact .inr hp, h⟩
  obtain ⟨p, hp, h⟩ := hpair
  have hval : handleCost K p.1 p.2 = 4 * K + 5 := by
    rw [handleCost, if_pos]
    rcases h with rfl | rfl
    · exact .inl h4
    · exact .inr h4
  rw [namedCost, ← hval]
  refine List.single_le_sum ?_ _ (List.mem_map.2 ⟨p, hp, rfl⟩)
  simp only [List.mem_map]
  rintro _ ⟨q, -, rfl⟩
  exact (handleLab_ok K).costs _ _

/-- The only cheap tours are those around the cycle. -/
theorem handle_tours {t : List (Fin 7)} (ht : IsTourIn handleEdges 0 t) (h4 : 4 ≤ t.length) (hx : ¬ ∃ x ∈ t, 4 ≤ x) : t = [0, 1, 2, 3, 0] ∨ t = [0, 3, 2, 1, 0] := by
  obtain ⟨⟨m, rfl⟩, hn, hw⟩ := ht
  rw [← List.cons_append, List.dropLast_concat] at hn
  have hsub : m ⊆ [1, 2, 3] := by
    intro x hm
    have h0 : x ≠ 0 := fun e => (List.nodup_cons.1 hn).1 (e ▸ hm)
    have h1 : ¬ 4 ≤ x := fun h => hx ⟨x, by simp [hm], h⟩
    clear * - h0 h1
    revert x
    decide
  have hlen := (List.nodup_cons.1 hn).2.subperm hsub |>.length_le
  have hall := List.all_eq_true.2 fun p hp => decide_eq_true (hw p hp)
  have hm : ∀ x ∈ m, x = 1 ∨ x = 2 ∨ x = 3 := fun x hx => by simpa using hsub hx
  clear hx hsub hw
  match m, hlen with
  | [], _ => simp at h4
  | [a], _ => simp at h4
  | [a, b], _ =>
    clear h4 hlen
    rcases hm a (by simp) with rfl | rfl | rfl <;> rcases hm b (by simp) with rfl | rfl | rfl <;> first | (exact absurd hn (by decide)) | (exact absurd hall (by decide))
  | [a, b, c], _ =>
    clear h4 hlen
    rcases hm a (by simp) with rfl | rfl | rfl <;> rcases hm b (by simp) with rfl | rfl | rfl <;> rcases hm c (by simp) with rfl | rfl | rfl <;>
      first | (exact absurd hn (by decide)) | (exact absurd hall (by decide)) | (exact .inl rfl) | (exact .inr rfl)

theorem handle_triangles : ∀ x y z : Fin 7, AdjIn handleEdges x y → AdjIn handleEdges y z → AdjIn handleEdges z x → 4 ≤ x ∨ 4 ≤ y ∨ 4 ≤ z := by decide +kernel

/-- The graph that the binding builds. -/
def handleGraph : Graph := graphOf (renameEdges [] handleEdges).1

theorem handle_insertable {t : List Nat} (ht : t = [0, 1, 2, 3, 0] ∨ t = [0, 3, 2, 1, 0]) {v a b : Nat} (h : Insertable handleGraph t v a b) :
    v = 4 ∧ (a = 0 ∧ b = 1 ∨ a = 1 ∧ b = 0) := by
  obtain ⟨h1, h2, h3, h4, h5⟩ := h
  have h3' : v < 7 := h3
  rcases ht with rfl | rfl <;> simp [consec] at h1 <;> rcases h1 with ⟨rfl, rfl⟩ | ⟨rfl, rfl⟩ | ⟨rfl, rfl⟩ | ⟨rfl, rfl⟩ <;>
    · clear h3
      interval_cases v <;> revert h2 h4 h5 <;> decide +kernel

/-- The gain of the vertex, in exact arithmetic. -/
theorem handle_gain_value {K : Nat} {cost prize : Nat → Int} (h04 : pairCost handleGraph cost 0 4 = 4 * K + 5) (h40 : pairCost handleGraph cost 4 0 = 4 * K + 5)
    (h41 : pairCost handleGraph cost 4 1 = 4 * K + 5) (h14 : pairCost handleGraph cost 1 4 = 4 * K + 5) (h01 : pairCost handleGraph cost 0 1 = 1)
    (h10 : pairCost handleGraph cost 1 0 = 1) (hp : prize 4 = 1) {a b : Nat} (h : a = 0 ∧ b = 1 ∨ a = 1 ∧ b = 0) :
    gainBetween FloatOps.ieeeExact handleGraph cost prize 4 a b = .fin (1 / (8 * K + 9)) := by
  have hK : (8 * (K : Rat) + 9) ≠ 0 := by positivity
  have hd : ((4 * (K : Int) + 5 + (4 * K + 5) - 1 : Int) : Rat) = 8 * K + 9 := by push_cast; ring
  rcases h with ⟨rfl, rfl⟩ | ⟨rfl, rfl⟩ <;>
    simp only [gainBetween, h04, h41, h01, h14, h40, h10, hp, FloatOps.ieeeExact, FloatOps.ieee, Ext.div, hd, if_neg hK, Int.cast_one]

theorem handle_average {K : Nat} {cost prize : Nat → Int}
    (hg : ∀ a b, a = 0 ∧ b = 1 ∨ a = 1 ∧ b = 0 → gainBetween FloatOps.ieeeExact handleGraph cost prize 4 a b = .fin (1 / (8 * K + 9)))
    {t : List Nat} (ht : t = [0, 1, 2, 3, 0] ∨ t = [0, 3, 2, 1, 0]) :
    FloatOps.ieeeExact.lt (averageGain FloatOps.ieeeExact handleGraph cost prize t) (.fin (1 / (8 * K + 9))) = true := by
  have hK : (0 : Rat) < 1 / (8 * K + 9) := by positivity
  have hout : (List.range handleGraph.n).filter (fun v => decide (v ∉ t)) = [4, 5, 6] := by rcases ht with rfl | rfl <;> decide +kernel
  have h56 : ∀ v, v = 5 ∨ v = 6 → maxGain FloatOps.ieeeExact handleGraph cost prize t v = .fin 0 := by
    intro v hv
    have hno : ∀ p ∈ consec t, ¬ (Adj handleGraph p.1 v ∧ Adj handleGraph v p.2) := by
      rcases ht with rfl | rfl <;> rcases hv with rfl | rfl <;> decide +kernel
    have : ∀ l : List (Nat × Nat), (∀ p ∈ l, ¬ (Adj handleGraph p.1 v ∧ Adj handleGraph v p.2)) → l.foldl (fun m p =>
        if Adj handleGraph p.1 v ∧ Adj handleGraph v p.2 ∧ FloatOps.ieeeExact.lt m (gainBetween FloatOps.ieeeExact handleGraph cost prize v p.1 p.2) = true
        then gainBetween FloatOps.ieeeExact handleGraph cost prize v p.1 p.2 else m) (.fin 0) = .fin 0 := by
      intro l hl
      induction l with
      | nil => rfl
      | cons p l ih =>
        rw [List.foldl_cons, if_neg fun h => hl p (by simp) ⟨h.1, h.2.1⟩]
        exact ih fun q hq => hl q (by simp [hq])
    exact this _ hno
  have h4 : maxGain FloatOps.ieeeExact handleGraph cost prize t 4 = .fin (1 / (8 * K + 9)) := by
    have g1 := hg 0 1 (.inl ⟨rfl, rfl⟩)
    have g2 := hg 1 0 (.inr ⟨rfl, rfl⟩)
    have a01 : Adj handleGraph 0 4 ∧ Adj handleGraph 4 1 ∧ Adj handleGraph 1 4 ∧ Adj handleGraph 4 0 := by decide +kernel
    have a2 : ¬ Adj handleGraph 4 2 ∧ ¬ Adj handleGraph 2 4 ∧ ¬ Adj handleGraph 4 3 ∧ ¬ Adj handleGraph 3 4 := by decide +kernel
    have hlt : FloatOps.ieeeExact.lt FloatOps.ieeeExact.zero (.fin (1 / (8 * K + 9))) = true := decide_eq_true hK
    rcases ht with rfl | rfl
    · simp only [maxGain, consec, List.tail_cons, List.zip_cons_cons, List.zip_nil_right, List.foldl_cons, List.foldl_nil, g1, a01, a2, hlt, and_self, and_false,
        false_and, if_true, if_false]
    · simp only [maxGain, consec, List.tail_cons, List.zip_cons_cons, List.zip_nil_right, List.foldl_cons, List.foldl_nil, g2, a01, a2, hlt, and_self, and_false,
        false_and, if_true, if_false]
  have hsum : averageGain FloatOps.ieeeExact handleGraph cost prize t = .fin (1 / (8 * K + 9) / 3) := by
    simp only [averageGain, hout, List.map_cons, List.map_nil, h4, h56 5 (.inl rfl), h56 6 (.inr rfl), List.foldl_cons, List.foldl_nil]
    simp [FloatOps.ieeeExact, FloatOps.ieee, Ext.add, Ext.div]
  rw [hsum]
  exact decide_eq_true (by linarith)

/-- Extension by unitary gain inserts the vertex: its gain is above the average. -/
theorem handle_extends (K : Nat) {small long : List (Fin 7)} (hs : small = [0, 1, 2, 3, 0] ∨ small = [0, 3, 2, 1, 0])
    (h : extensionUnitaryGainBind FloatOps.ieeeExact handleEdges small (handleLab K).costs (handleLab K).prizes = .ok long) : 5 < long.length := by
  have htour : IsTourIn handleEdges 0 small := by
    rcases hs with rfl | rfl
    · exact handle_cheap.tour
    · exact ⟨⟨[3, 2, 1], rfl⟩, by decide, by decide⟩
  obtain ⟨p, r', -, h1, h2, h3, h4⟩ := prepareRoot_spec (handleLab_ok K).describes (show IsTourIn (handleLab K).edges 0 small from htour)
  have hgraph : p.graph = handleGraph := by
    simp only [prepare] at h1
    obtain ⟨t, -, h1⟩ := Res.bind_eq_ok.1 h1
    obtain ⟨c, -, h1⟩ := Res.bind_eq_ok.1 h1
    obtain ⟨q, -, h1⟩ := Res.bind_eq_ok.1 h1
    rw [← Res.ok.inj h1]
    rfl
  have hD : firstSeen (handleLab K).edges = [0, 1, 2, 3, 4, 5, 6] := show firstSeen handleEdges = _ by decide +kernel
  rw [hD] at h2 h3
  have hname : ∀ k (x : Fin 7), ([0, 1, 2, 3, 4, 5, 6] : List (Fin 7))[k]? = some x → k = x.val := by
    intro k x hk
    have hlt : k < 7 := (List.getElem?_eq_some_iff.1 hk).1
    interval_cases k <;> simp at hk <;> subst hk <;> rfl
  have ht : p.tour = [0, 1, 2, 3, 0] ∨ p.tour = [0, 3, 2, 1, 0] := by
    have : ∀ l l', List.Forall₂ (NameOf ([0, 1, 2, 3, 4, 5, 6] : List (Fin 7))) l l' → l' = l.map Fin.val := by
      intro l l' hl
      induction hl with
      | nil => rfl
      | cons hx _ ih => rw [List.map_cons, ← ih, ← hname _ _ hx]
    rw [this _ _ h2.named]
    rcases hs with rfl | rfl
    · exact .inl rfl
    · exact .inr rfl
  have hcost : ∀ a b (x y : Fin 7), ([0, 1, 2, 3, 4, 5, 6] : List (Fin 7))[a]? = some x → ([0, 1, 2, 3, 4, 5, 6] : List (Fin 7))[b]? = some y →
      AdjIn handleEdges x y → pairCost p.graph p.cost a b = handleCost K x y := by
    intro a b x y hx hy hxy
    have := h2.cost (t := [x, y]) (t' := [a, b]) (.cons hx (.cons hy .nil)) (by
      intro q hq
      simp [consec] at hq
      subst hq
      exact (h2.adj hx hy).2 hxy)
    simpa [walkCost, namedCost, consec] using this
  have hp4 : p.prize 4 = 1 := h2.prizeOf 4 4 rfl
  simp only [extensionUnitaryGainBind, show prepare handleEdges small (handleLab K).costs (handleLab K).prizes = .ok p from h1, Res.ok_bind] at h
  obtain ⟨t', k1, k2⟩ := Res.bind_eq_ok.1 h
  have hlong : long.length = t'.length := by
    rw [getOldVertices] at k2
    exact (mapRes_eq_ok.1 k2).length_eq.symm
  obtain ⟨t'', j1, j2, j3⟩ := C48_gain_best_insertions FloatOps.ieeeExact FloatOps.ieeeExact_strict p.graph p.cost p.prize p.tour
    (by rcases ht with e | e <;> rw [e] <;> simp) (by rw [hgraph]; rcases ht with e | e <;> rw [e] <;> decide +kernel) h4.walk
  obtain rfl : t'' = t' := by rw [k1] at j1; exact (Res.ok.inj j1).symm
  rw [hgraph] at j2 j3 hcost
  have hval : ∀ a b, a = 0 ∧ b = 1 ∨ a = 1 ∧ b = 0 → gainBetween FloatOps.ieeeExact handleGraph p.cost p.prize 4 a b = .fin (1 / (8 * K + 9)) := fun a b hab =>
    handle_gain_value (K := K) (hcost 0 4 0 4 rfl rfl (by decide)) (hcost 4 0 4 0 rfl rfl (by decide)) (hcost 4 1 4 1 rfl rfl (by decide))
      (hcost 1 4 1 4 rfl rfl (by decide)) (hcost 0 1 0 1 rfl rfl (by decide)) (hcost 1 0 1 0 rfl rfl (by decide)) hp4 hab
  have hlen : p.tour.length = 5 := by rcases ht with e | e <;> rw [e] <;> rfl
  rw [hlong, ← hlen]
  cases j2 with
  | refl =>
    exfalso
    rcases j3 with j3 | ⟨v, a, b, j3, j4⟩
    · obtain ⟨a, b, hab, hin⟩ : ∃ a b, (a = 0 ∧ b = 1 ∨ a = 1 ∧ b = 0) ∧ Insertable handleGraph p.tour 4 a b := by
        rcases ht with e | e <;> rw [e]
        · exact ⟨0, 1, .inl ⟨rfl, rfl⟩, by decide +kernel, by decide, by decide +kernel, by decide +kernel, by decide +kernel⟩
        · exact ⟨1, 0, .inr ⟨rfl, rfl⟩, by decide +kernel, by decide, by decide +kernel, by decide +kernel, by decide +kernel⟩
      have := j3 4 a b hin
      rw [hval a b hab] at this
      exact absurd (show FloatOps.ieeeExact.lt FloatOps.ieeeExact.zero (.fin (1 / (8 * (K : Rat) + 9))) = true from decide_eq_true (by positivity)) (by rw [this]; simp)
    · obtain ⟨rfl, hab⟩ := handle_insertable ht j3.insertable
      rw [hval a b hab, handle_average hval ht] at j4
      cases j4
  | step hP hi hs =>
    have h1 := hs.onlyInserts.sub.length_le
    obtain ⟨A, B, e1, e2⟩ := hi.split
    rw [e1]
    rw [e2] at h1
    simp at h1 ⊢
    omega

theorem handle_all (K : Nat) : ∀ q t, FeasibleIn (handleLab K).edges (fun _ => 1) q 0 t → 3 ≤ namedPrize (fun _ => 1) t := by
  rintro q t ⟨⟨⟨m, rfl⟩, -, -⟩, h3, -⟩
  rw [namedPrize, ← List.cons_append, List.dropLast_concat]
  simp at h3 ⊢
  omega

theorem handle_cost (K : Nat) : namedCost (handleCost K) [0, 1, 2, 3, 0] = 4 ∧ namedCost (handleCost K) [0, 3, 2, 1, 0] = 4 := by
  constructor <;> simp [namedCost, consec, handleCost] <;> decide

theorem handle_least (K : Nat) {q : Int} {t : List (Fin 7)} (ht : FeasibleIn (handleLab K).edges (fun _ => 1) q 0 t) : 4 ≤ namedCost (handleCost K) t ∧
    (namedCost (handleCost K) t ≤ 4 → t = [0, 1, 2, 3, 0] ∨ t = [0, 3, 2, 1, 0]) := by
  by_cases hx : ∃ x ∈ t, 4 ≤ x
  · have := handle_dear K (by have := ht.three; omega) hx
    exact ⟨by omega, fun h => by omega⟩
  · have := handle_tours ht.tour ht.three hx
    refine ⟨?_, fun _ => this⟩
    rcases this with rfl | rfl
    · exact (handle_cost K).1.ge
    · exact (handle_cost K).2.ge

/-- **C138.** Extension and collapse can be arbitrarily worse than the other two.  For every number there is an instance on which Suurballe's heuristic and path
extension and collapse from its tour always return and always report an optimal tour, of cost 4, but extension and collapse from its tour has a run, with exact
arithmetic, that reports a tour that costs more than that number times 4. -/
theorem C138_dear (K : Nat) : ∃ (G : LabGraph (Fin 7)) (w : Fin 7 → Fin 7 → Int) (π : Fin 7 → Int), G.Ok w π ∧ (∀ e ∈ G.edges, e.1 ≠ e.2) ∧
    (∃ t, FeasibleIn G.edges π 3 0 t ∧ namedCost w t = 4 ∧ ∀ t', FeasibleIn G.edges π 3 0 t' → 4 ≤ namedCost w t') ∧
    ∀ flags mp, flags.shortestPathCutoff = false ∧ flags.disjointPathCutoff = false → mp.isHeuristic = true →
      (mp.algorithm = .suurballesHeuristic ∨ mp.algorithm = .suurballesPathExtensionCollapse →
        (∃ r, Nonempty (VialRun flags G w π 3 0 mp none r)) ∧
        ∀ s r, VialRun flags G w π 3 0 mp s r → ∃ t, FeasibleIn G.edges π 3 0 t ∧ Reports w π t r ∧ r.objective = 4) ∧
      (mp.algorithm = .suurballesExtensionCollapse →
        ∃ r, Nonempty (VialRun flags G w π 3 0 mp none r) ∧ ∃ t, FeasibleIn G.edges π 3 0 t ∧ Reports w π t r ∧ K * 4 < r.objective) := by
  have hG := handleLab_ok K
  have hc := handle_cycles K
  have hcheap : FeasibleIn (handleLab K).edges (fun _ => 1) 3 0 [0, 1, 2, 3, 0] := handle_cheap
  have h4 := (handle_cost K).1
  have hlt : namedCost (handleCost K) [0, 1, 2, 3, 0] < maxsize := by rw [h4]; decide
  have hmin : ∀ q t', FeasibleIn (handleLab K).edges (fun _ => 1) q 0 t' → 1 ∈ t' →
      namedCost (handleCost K) [0, 1, 2, 3, 0] ≤ namedCost (handleCost K) t' ∧
        (namedCost (handleCost K) t' = namedCost (handleCost K) [0, 1, 2, 3, 0] → 3 ≤ namedPrize (fun _ => 1) t') := fun q t' ht' _ =>
    ⟨by rw [h4]; exact (handle_least K ht').1, fun _ => handle_all K q t' ht'⟩
  refine ⟨handleLab K, handleCost K, fun _ => 1, hG, handle_simple, ⟨_, hcheap, h4, fun t' ht' => (handle_least K ht').1⟩, fun flags mp hf hh => ⟨?_, fun ha => ?_⟩⟩
  · rintro (ha | ha)
    · refine ⟨?_, fun s r R => ?_⟩
      · obtain ⟨r, h, -⟩ := C127_heuristics hG handle_simple ⟨_, hc.1, by decide⟩ 3 hf hh (.inr (.inr ⟨ha, _, _, hcheap, hlt⟩))
        exact ⟨r, h⟩
      · obtain ⟨t, k1, k2, k3⟩ := C128_optimal hG handle_simple hh ha R (handle_all K) ⟨_, _, hcheap, hlt⟩
        refine ⟨t, k1, k2, ?_⟩
        rw [k2.objective]
        exact le_antisymm (by rw [← h4]; exact k3 _ hcheap) (handle_least K k1).1
    · refine ⟨?_, fun s r R => ?_⟩
      · obtain ⟨r, h, -⟩ := exists_variant hG handle_simple hf hh (.inr ha) (v := 1) (by decide) (by decide) hcheap hlt hmin
        exact ⟨r, h⟩
      · obtain ⟨t, k1, k2, k3⟩ := C138_optimal hG handle_simple hh (.inr ha) R (handle_all K) ⟨_, _, hcheap, hlt⟩
        refine ⟨t, k1, k2, ?_⟩
        rw [k2.objective]
        exact le_antisymm (by rw [← h4]; exact k3 ha _ hcheap) (handle_least K k1).1
  · obtain ⟨r, ⟨R⟩, h⟩ := exists_variant hG handle_simple hf hh (.inl ha) (v := 1) (by decide) (by decide) hcheap hlt hmin
    obtain ⟨t, t1, t2, -⟩ := C138_bound hG handle_simple hh (.inl ha) R (v := 1) (by decide) (by decide) hcheap hlt hmin
    refine ⟨r, ⟨R⟩, t, t1, t2, ?_⟩
    obtain ⟨h, small, long, t', hp, k1, k2, k3, k4, k5, k6⟩ := h ha
    obtain ⟨-, hcyc, -⟩ := C70_tours_kept _ _ _ flags (handleLab K).nx h 0 hG.wf hp.comp hp.bicomp hp.run
    have hall : ∀ x : Fin 7, x ∈ h.nodes := by
      intro x
      have i1 := ((hcyc _ (by decide)).2 hc.1).inside
      have i2 := ((hcyc _ (by decide)).2 hc.2.1).inside
      have i3 := ((hcyc _ (by decide)).2 hc.2.2).inside
      have : x ∈ [0, 1, 2, 3] ∨ x ∈ [0, 4, 1] ∨ x ∈ [0, 5, 6, (1 : Fin 7)] := by revert x; decide
      rcases this with hx | hx | hx
      · exact i1 x hx
      · exact i2 x hx
      · exact i3 x hx
    have e1 : ((handleLab K).restrict h).edges = handleEdges := List.filter_eq_self.2 fun e _ => by simp [hall]
    have e2 : ((handleLab K).restrict h).costs = (handleLab K).costs := List.filter_eq_self.2 fun e _ => by simp [hall]
    have e3 : ((handleLab K).restrict h).prizes = (handleLab K).prizes := List.filter_eq_self.2 fun e _ => by simp [hall]
    rw [e1, e2, e3] at k3 k5
    rw [e1] at k4
    have hlong := handle_extends K ((handle_least K k1).2 (by rw [← h4]; exact k2)) k3
    obtain ⟨t'', j1, j2⟩ := C135_names handleEdges (handleLab K).costs (handleLab K).prizes (handleCost K) (fun _ => 1) hG.describes hG.prizes 0 long k4 3
      (fun _ => exPick) (fun _ => exPick_heap)
    obtain rfl : t'' = t' := by rw [k5] at j1; exact (Res.ok.inj j1).symm
    rw [k6.objective]
    rcases j2.1 with e | ⟨P, v, hs, e⟩
    · rw [e]
      have hx : ∃ x ∈ long, 4 ≤ x := by
        by_contra hx
        rcases handle_tours k4 (by omega) hx with rfl | rfl <;> simp at hlong
      have := handle_dear K (by omega) hx
      omega
    · rw [e]
      have h2 := hs.two
      have h3 := hs.low
      simp at h3
      match P, h2, h3 with
      | [x, y], _, _ =>
        have hw := hs.walk
        have := handle_triangles x y v (hw (x, y) (by simp [closeRun, consec])) (hw (y, v) (by simp [closeRun, consec])) (hw (v, x) (by simp [closeRun, consec]))
        have := handle_dear K (t := closeRun [x, y] [v]) (by simp [closeRun]) (by
          rcases this with h | h | h
          · exact ⟨x, by simp [closeRun], h⟩
          · exact ⟨y, by simp [closeRun], h⟩
          · exact ⟨v, by simp [closeRun], h⟩)
        omega
      | x :: y :: z :: l, _, h3 => simp at h3; omega

/-! ## Examples -/

theorem fourLab_all : ∀ q t, FeasibleIn fourLab.edges (fun _ => 1) q 0 t → 3 ≤ namedPrize (fun _ => 1) t := by
  rintro q t ⟨⟨⟨m, rfl⟩, -, -⟩, h3, -⟩
  rw [namedPrize, ← List.cons_append, List.dropLast_concat]
  simp at h3 ⊢
  omega

/-- On the complete graph with four vertices every tour meets the quota 3, and both heuristics have a run. -/
example : (∀ alg, alg = .suurballesExtensionCollapse ∨ alg = .suurballesPathExtensionCollapse →
      ∃ r, Nonempty (VialRun ⟨false, false, true, false, false⟩ fourLab fourCost (fun _ => 1) 3 0 (heuristicRun alg none none none).model none r)) ∧
    (∀ q t, FeasibleIn fourLab.edges (fun _ => 1) q 0 t → 3 ≤ namedPrize (fun _ => 1) t) ∧
    (FeasibleIn fourLab.edges (fun _ => 1) 3 0 [0, 2, 1, 0] ∧ namedCost fourCost [0, 2, 1, 0] < maxsize) ∧
    ∀ q t', FeasibleIn fourLab.edges (fun _ => 1) q 0 t' → 1 ∈ t' → namedCost fourCost [0, 2, 1, 0] ≤ namedCost fourCost t' ∧
      (namedCost fourCost t' = namedCost fourCost [0, 2, 1, 0] → 3 ≤ namedPrize (fun _ => 1) t') := by
  have hmin : ∀ q t', FeasibleIn fourLab.edges (fun _ => 1) q 0 t' → 1 ∈ t' → namedCost fourCost [0, 2, 1, 0] ≤ namedCost fourCost t' ∧
      (namedCost fourCost t' = namedCost fourCost [0, 2, 1, 0] → 3 ≤ namedPrize (fun _ => 1) t') := fun q t' ht _ =>
    ⟨fourLab_cheapest ⟨ht.tour, ht.three, fourLab_all q t' ht⟩, fun _ => fourLab_all q t' ht⟩
  refine ⟨fun alg ha => ?_, fourLab_all, ⟨fourLab_feasible, by decide⟩, hmin⟩
  obtain ⟨r, h, -⟩ := exists_variant (flags := ⟨false, false, true, false, false⟩) fourLab_ok (by decide) ⟨rfl, rfl⟩
    (mp := (heuristicRun alg none none none).model) (by rcases ha with rfl | rfl <;> rfl) ha (v := 1) (by decide) (by decide) fourLab_feasible (by decide) hmin
  exact ⟨r, h⟩

/-- There are disjoint paths from which Suurballe's heuristic returns the edges of a tour. -/
example : ∃ (dij : DijkstraOut (SplitV (Fin 4))) (depth : Nat) (T : STree (SplitV (Fin 4))) (st : SState (SplitV (Fin 4)))
    (m : List (Fin 4 × (List (Fin 4) × List (Fin 4)))) (es : List (Fin 4 × Fin 4)),
    (plainEnv fourLab (fun _ => 1) 0).Ok fourLab (fun _ => 1) 0 ∧ SuurballeOn fourLab.nx fourCost (splitGraph fourLab.nx fourCost) tailOf headOf splitNames 0 dij depth T st ∧
    0 ∉ fourLab.nx.adj 0 ∧ undirectedVertexDisjointPathsMap splitNames T st (treeNodes (headOf 0) dij) = .ok m ∧
    runHeuristic (plainEnv fourLab (fun _ => 1) 0) fourLab 3 0 .suurballesHeuristic (vertexDisjointCostMap splitNames T st (treeNodes (headOf 0) dij)) m none none none
      = .ok es ∧ es ≠ [] := by
  have hE := plainEnv_ok fourLab_ok (root := 0) (by decide)
  have hl : 0 ∉ fourLab.nx.adj 0 := by decide
  obtain ⟨dij, depth, T, st, hS⟩ := exists_suurballeOn (U := fourLab.nx) fourLab_ok.wf (cost := fourCost) (fun u v _ => fourLab_ok.describes.symm u v)
    (fun u v _ => fourLab_ok.costs u v) 0
  obtain ⟨m, t, hm, h1, h2, h3, h4⟩ := suurballes_found fourLab_ok hE hS hl 3
  have hback : ∀ l, NxCycle fourLab.nx (0 :: l) → FeasibleIn fourLab.edges (fun _ => 1) 3 0 (0 :: (l ++ [0])) := fun l hl =>
    (feasibleIn_iff fourLab_ok.wf fourLab_ok.adj).2 ⟨l, rfl, hl, fourLab_all _ _ ((feasibleIn_iff fourLab_ok.wf fourLab_ok.adj).2 ⟨l, rfl, hl, le_rfl⟩)⟩
  obtain ⟨l, e, hl', -⟩ := (feasibleIn_iff fourLab_ok.wf fourLab_ok.adj).1 fourLab_feasible
  obtain ⟨ht, -⟩ := h4 1 (namedCost fourCost [0, 2, 1, 0]) (by decide) ⟨l, hl', by
      have : (1 : Fin 4) ∈ 0 :: (l ++ [0]) := by rw [← e]; decide
      simpa using this, by rw [← e]; decide⟩ (by
    rintro c' ⟨l', k1, -, rfl⟩
    exact fourLab_cheapest (hback l' k1)) (by decide) fun l' k1 _ _ => (hback l' k1).prize
  refine ⟨dij, depth, T, st, m, _, hE, hS, hl, hm,
    runHeuristic_of_first (small := []) (alg := .suurballesHeuristic) hE (fun _ => ⟨(h3 ht).1, fun e => (h3 ht).1 (h2 e)⟩) rfl h1, ?_⟩
  obtain ⟨-, -, h5, -⟩ := h3 ht
  have := h5.three
  match t, this with
  | _ :: _ :: _, _ => simp [consec]

end Pctsp
