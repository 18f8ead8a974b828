import Verif.Spec.Easier
import Verif.Lemmas.LowerQuota
import Verif.Props.Monotone
import Verif.Props.Dominance

/-! Helper lemmas: heuristics on easier instances. -/

namespace Pctsp

/-- A tour is found with a lower quota whenever one is found with a higher one. -/
theorem pathExtensionCollapse_lower {F : Type} (O : FloatOps F) (hO : O.SignSound) {g : Graph} (hg : g.WF) {r : Nat} {t : List Nat} (ht : IsTour g r t)
    {cost prize : Nat → Int} (hp : ∀ v, 0 ≤ prize v) {q q' : Int} (hq : q' ≤ q) {useShortest : Bool}
    (hc : useShortest = true → ∀ e < g.edges.length, 0 ≤ cost e) {pick0 : Nat → Pick} {pick : Nat → Nat → Pick}
    (hpick0 : ∀ i, (pick0 i).Heap) (hpick : ∀ j i, (pick j i).Heap) {depth step : Int} {s : List Nat}
    (h : pathExtensionCollapse O g t cost prize q r useShortest pick0 pick depth step = .ok s) (hs : s ≠ []) :
    ∃ s', pathExtensionCollapse O g t cost prize q' r useShortest pick0 pick depth step = .ok s' ∧ IsTour g r s' := by
  by_cases h1 : q' ≤ tourPrize prize t
  · obtain ⟨s', h2, h3, -⟩ := C24_never_worse O hO g hg r t ht cost prize hp q' h1 useShortest hc pick0 pick hpick0 hpick depth step
    exact ⟨s', h2, h3⟩
  · rw [pathExtensionCollapse, totalPrizeOfTour_eq prize ht.ne_nil] at h ⊢
    simp only [Res.ok_bind] at h ⊢
    rw [if_neg (by omega)] at h ⊢
    obtain ⟨t1, b, r1, -⟩ := extendUntilFeasibleLoop_spec O hO hg cost prize q depth step.toNat 1 (by omega) t ht
    cases b with
    | false =>
      rw [r1] at h
      simp only [Res.ok_bind, if_true] at h
      exact absurd (Res.ok.inj h).symm hs
    | true =>
      obtain ⟨t2, r2⟩ := extendUntilFeasibleLoop_lower O hq _ _ _ r1 (by
        intro p hp
        rw [totalPrizeOfTour_eq prize ht.ne_nil] at hp; cases hp; omega)
      obtain ⟨t3, b, r3, r4, r5, -⟩ := extendUntilFeasibleLoop_spec O hO hg cost prize q' depth step.toNat 1 (by omega) t ht
      rw [r2] at r3; cases r3
      obtain ⟨s', h2, h3, -⟩ := C24_never_worse O hO g hg r t2 r4 cost prize hp q' (r5 rfl) useShortest hc pick0 pick hpick0 hpick depth step
      rw [pathExtensionCollapse, totalPrizeOfTour_eq prize r4.ne_nil] at h2
      simp only [Res.ok_bind] at h2
      rw [if_pos (r5 rfl)] at h2
      rw [r2]
      exact ⟨s', h2, h3⟩

theorem pathExtensionCollapseBind_lower {F V : Type} [DecidableEq V] (O : FloatOps F) (hO : O.SignSound) {es : List (V × V)} {costs : List ((V × V) × Int)}
    {prizes : List (V × Int)} {w : V → V → Int} {π : V → Int} (h : Describes es costs prizes w π) (hp : ∀ x, 0 ≤ π x)
    {r : V} {t : List V} (ht : IsTourIn es r t) {q q' : Int} (hq : q' ≤ q) {useShortest : Bool} (hw : useShortest = true → ∀ x y, 0 ≤ w x y)
    {pick0 : Nat → Pick} {pick : Nat → Nat → Pick} (hpick0 : ∀ i, (pick0 i).Heap) (hpick : ∀ j i, (pick j i).Heap) {depth step : Int} {s : List V}
    (hs : pathExtensionCollapseBind O es t costs prizes r q useShortest pick0 pick depth step = .ok s) (hne : s ≠ []) :
    ∃ s', pathExtensionCollapseBind O es t costs prizes r q' useShortest pick0 pick depth step = .ok s' ∧ s' ≠ [] := by
  obtain ⟨p, r', h1, -, h2, h3, h4⟩ := prepareRoot_spec h ht
  rw [pathExtensionCollapseBind, h1] at hs ⊢
  simp only [Res.ok_bind] at hs ⊢
  obtain ⟨u, k1, -⟩ := C23_nothing_or_feasible O hO p.graph h2.wf r' p.tour h4 p.cost p.prize (h2.nonneg hp) q useShortest (fun e => h2.costNonneg (hw e))
    pick0 pick hpick0 hpick depth step
  rw [k1] at hs
  simp only [Res.ok_bind] at hs
  have hu : u ≠ [] := by
    rintro rfl
    exact hne (List.length_eq_zero_iff.1 (getOldVertices_length hs))
  obtain ⟨u', k2, k3⟩ := pathExtensionCollapse_lower O hO h2.wf h4 (h2.nonneg hp) hq (fun e => h2.costNonneg (hw e)) hpick0 hpick k1 hu
  obtain ⟨t', b1, b2, -⟩ := h2.back h3 k3
  rw [k2]
  simp only [Res.ok_bind]
  refine ⟨t', b1, ?_⟩
  obtain ⟨m, rfl⟩ := b2.shape
  simp

/-- A tour below the quota stays below the quota. -/
theorem collapseBind_below {V : Type} [DecidableEq V] {es : List (V × V)} {costs : List ((V × V) × Int)}
    {prizes : List (V × Int)} {w : V → V → Int} {π : V → Int} (h : Describes es costs prizes w π) (hp : ∀ x, 0 ≤ π x)
    {r : V} {t : List V} (ht : IsTourIn es r t) {quota : Int} {useShortest : Bool} {pick : Nat → Pick} (hq : namedPrize π t < quota) :
    ∃ t', collapseBind es t costs prizes quota r useShortest pick = .ok t' ∧ namedPrize π t' = namedPrize π t := by
  obtain ⟨p, r', h1, -, h2, h3, h4⟩ := prepareRoot_spec h ht
  rw [collapseBind, h1]
  simp only [Res.ok_bind]
  rw [collapse_below h2.wf h4 (h2.nonneg hp) (by rw [h2.prize h2.named]; exact hq)]
  obtain ⟨t', b1, -, -, b4⟩ := h2.back h3 h4
  exact ⟨t', b1, by rw [b4, ← h2.prize h2.named]⟩

/-- A heuristic from a cycle of the breadth first search that finds a tour starts from a cycle. -/
theorem bfs_start {F V : Type} [DecidableEq V] {env : LabEnv F V} {G : LabGraph V} {w : V → V → Int} {π : V → Int} {root : V} (hG : G.Ok w π)
    (hE : env.Ok G π root) {quota : Int} {costMap : List (V × Int)} {pathsMap : List (V × (List V × List V))} {cp : Option Bool} {dl ss : Option Int}
    {a : AlgorithmName} (ha : a = .bfsExtensionCollapse ∨ a = .bfsPathExtensionCollapse) {es : List (V × V)}
    (h : runHeuristic env G quota root a costMap pathsMap cp dl ss = .ok es) {t : List V} (ht : IsTourIn G.edges root t) (hl : 4 ≤ t.length) :
    ∃ small, findCycleFromBfs env.setOrder G.nx env.tree root = .ok small ∧ IsTourIn G.edges root small ∧ 4 ≤ small.length := by
  have hroot : root ∈ G.nx.nodes := by
    obtain ⟨m, rfl⟩ := ht.shape
    match m, hl with
    | b :: m, _ =>
      have := ht.walk (root, b) (by simp)
      exact (hG.wf.closed root b ((hG.adj _ _).2 this)).1
  have hc : ∃ vs, NxCycle G.nx vs ∧ root ∈ vs := by
    by_contra hc
    have := C91_bfs_no_cycle hG hE hroot hc quota costMap pathsMap cp dl ss
    rcases ha with rfl | rfl
    · have := this.1; rw [h] at this; cases this
    · have := this.2; rw [h] at this; cases this
  obtain ⟨small, h1, h2, h3⟩ := C76_bfs_cycle env.setOrder hE.setOrder G.nx hG.wf root hroot env.tree hE.tree
  obtain ⟨m, rfl, hm⟩ := h3 fun e => h2.1 e hc
  refine ⟨_, h1, hG.tour hm, ?_⟩
  have := hm.long
  simp at this ⊢; omega

namespace HeuristicSetting

variable {F V W : Type} [LinearOrder V] [LinearOrder W]

/-- Suurballe's heuristic with the same disjoint paths, no higher quota and no lower prizes. -/
theorem Finds.suurballe {S S' : HeuristicSetting F V W} (hr : S'.root = S.root) (hd : S'.distances = S.distances) (hpa : S'.paths = S.paths)
    (hes : S'.G.edges = S.G.edges) (hπ : ∀ x, S.π x ≤ S'.π x) (hq : S'.quota ≤ S.quota) {c : Int}
    (h : S.Finds .suurballesHeuristic c) : ∃ c', S'.Finds .suurballesHeuristic c' ∧ c' ≤ c := by
  obtain ⟨t, h1, h2, rfl⟩ := h
  have hne : S.distances ≠ [] ∧ S.paths ≠ [] := by
    refine ⟨fun e => ?_, fun e => ?_⟩
    · have := ((C91_errors S.env S.G S.quota S.root _ S.paths S.collapsePaths S.depthLimit S.stepSize).2 .suurballesHeuristic (by simp) (.inl e)).symm.trans h1
      cases this
    · have := ((C91_errors S.env S.G S.quota S.root S.distances S.paths S.collapsePaths S.depthLimit S.stepSize).2 .suurballesHeuristic (by simp)
        (.inr e)).symm.trans h1
      cases this
  have hent : ∀ (R : HeuristicSetting F V W), ∀ e ∈ R.paths, (∃ t, ClosesTo e.2 t) ∧ ∃ c, dictGet R.distances e.1 = some c := by
    rintro R ⟨v, pq⟩ hm
    obtain ⟨m, k1, k2, k3⟩ := R.suurballe.pathsMap
    obtain rfl : m = R.paths := by rw [R.pathsOk] at k1; exact (Res.ok.inj k1).symm
    obtain ⟨c, a, b, k4, -, rfl⟩ := k3 v pq hm fun _ => R.noLoop
    exact ⟨⟨_, R.root, v, a, b, rfl, rfl, rfl⟩, c, k4⟩
  have heur : ∀ (R : HeuristicSetting F V W), R.distances ≠ [] → R.paths ≠ [] → ∀ u,
      suurballesHeuristic maxsize R.env.prizeOf R.quota (dictGet R.distances) R.paths = .ok u →
      R.run .suurballesHeuristic = .ok (consec u) ∧ (u ≠ [] → FeasibleIn R.G.edges R.π R.quota R.root u) := by
    intro R e1 e2 u hu
    refine ⟨runHeuristic_of_first (small := []) R.envOk (fun _ => ⟨e1, e2⟩) rfl hu, fun hune => ?_⟩
    obtain ⟨m', u', d1, d2, d3, -⟩ := C85_heuristic R.suurballe R.noLoop R.env.prizeOf R.quota
    obtain rfl : R.paths = m' := by rw [R.pathsOk] at d1; exact Res.ok.inj d1
    obtain rfl : u = u' := by
      have : Res.ok u = Res.ok u' := hu.symm.trans d2
      exact Res.ok.inj this
    obtain ⟨vs, rfl, k1, k2, -⟩ := d3 hune
    have htour := R.graphOk.tour k1
    refine ⟨htour, ?_, by rw [← R.envOk.prizeOf _ htour]; exact k2⟩
    have := k1.long; simp at this ⊢; omega
  obtain ⟨u, a1, a2, a3⟩ := C72_heuristic maxsize S.env.prizeOf S.quota (dictGet S.distances) S.paths (hent S)
  obtain ⟨u', b1, b2, b3⟩ := C72_heuristic maxsize S'.env.prizeOf S'.quota (dictGet S'.distances) S'.paths (hent S')
  obtain ⟨a4, a5⟩ := heur S hne.1 hne.2 u a1
  obtain ⟨b4, b5⟩ := heur S' (hd ▸ hne.1) (hpa ▸ hne.2) u' b1
  obtain rfl : t = u := by
    rw [h1] at a4
    exact eq_of_consec_eq (Res.ok.inj a4) (by have := h2.three; omega)
  have htne : t ≠ [] := by
    rintro rfl
    have := h2.three; simp at this
  obtain ⟨A, e, B, c, hm, c1, c2, c3, -⟩ := a3 htne
  have hq' : Qualifies S'.env.prizeOf S'.quota maxsize c t := by
    refine ⟨c3.1, ?_, c3.2.2⟩
    rw [S'.envOk.prizeOf _ (by rw [hes, hr]; exact h2.tour)]
    have h3 : namedPrize S.π t ≤ namedPrize S'.π t := List.sum_le_sum fun x _ => hπ x
    have := h2.prize
    omega
  have hmem : e ∈ S.paths := by rw [hm]; simp
  have hmem' : e ∈ S'.paths := hpa ▸ hmem
  have c2' : dictGet S'.distances e.1 = some c := hd ▸ c2
  have hu' : u' ≠ [] := fun e0 => b2.1 e0 e hmem' t c c1 c2' hq'
  refine ⟨_, ⟨u', b4, b5 hu', rfl⟩, ?_⟩
  obtain ⟨A', e', B', c', hm', d1, d2, d3, d4, d5⟩ := b3 hu'
  rw [S'.suurballe.closes_cost S'.noLoop S'.pathsOk (e := e') (by rw [hm']; simp) d1 d3.2.2 d2,
    S.suurballe.closes_cost S.noLoop S.pathsOk hmem c1 c3.2.2 c2]
  rw [hm'] at hmem'
  rcases List.mem_append.1 hmem' with h | h
  · exact (d4 e h t c c1 c2' hq').le
  · rcases List.mem_cons.1 h with rfl | h
    · rw [c2'] at d2; exact (Option.some.inj d2).ge
    · exact d5 e h t c c1 c2' hq'

/-- Extension and collapse from a cycle of the breadth first search, with no higher quota. -/
theorem Finds.bfs_ec {S S' : HeuristicSetting F V W} (ho : S.SameOptions S') (hg : S.SameGraph S') (hw : S'.G.costs = S.G.costs) (hp : S.SamePrizes S')
    (hq : S'.quota ≤ S.quota) {c : Int} (h : S.Finds .bfsExtensionCollapse c) : ∃ c', S'.Finds .bfsExtensionCollapse c' := by
  obtain ⟨t, h1, h2, rfl⟩ := h
  obtain ⟨small, k1, k2, k3⟩ := bfs_start S.graphOk S.envOk (.inl rfl) h1 h2.tour h2.three
  obtain ⟨long, u, a1, a2, a3, a4, a5, a6, a7, a8⟩ := runExtensionCollapse_spec S.graphOk S.envOk S.quota k2
  have hrun : S.run .bfsExtensionCollapse = .ok (consec u) := runHeuristic_of_first S.envOk (by simp [usesSuurballe]) k1 a4
  obtain rfl : t = u := by
    rw [h1] at hrun
    exact eq_of_consec_eq (Res.ok.inj hrun) (by have := h2.three; omega)
  have hlong : S.quota ≤ namedPrize S.π long := by
    by_contra hlt
    obtain ⟨t', e1, e2⟩ := collapseBind_below S.graphOk.describes S.graphOk.prizes a2 (useShortest := false) (pick := S.env.pick) (not_le.1 hlt)
    rw [runExtensionCollapse] at a4
    obtain ⟨x, -, a4⟩ := Res.bind_eq_ok.1 a4
    rw [extensionUnitaryGainCollapsePy, a1] at a4
    simp only [Res.ok_bind, e1] at a4
    cases a4
    have := h2.prize
    omega
  have k1' : findCycleFromBfs S'.env.setOrder S'.G.nx S'.env.tree S'.root = .ok small := by rw [ho.setOrder, hg.nx, hg.tree, ho.root]; exact k1
  have k2' : IsTourIn S'.G.edges S'.root small := by rw [hg.edges, ho.root]; exact k2
  obtain ⟨long', u', b1, b2, b3, b4, b5, b6, b7, b8⟩ := runExtensionCollapse_spec S'.graphOk S'.envOk S'.quota k2'
  rw [ho.float, hg.edges, hw, hp.prizes, a1] at b1
  cases b1
  exact ⟨_, u', runHeuristic_of_first S'.envOk (by simp [usesSuurballe]) k1' b4, ⟨b5, b8 k3, b7 (by rw [hp.π]; omega)⟩, rfl⟩

/-- Path extension and collapse from a cycle of the breadth first search, with no higher quota. -/
theorem Finds.bfs_pec {S S' : HeuristicSetting F V W} (ho : S.SameOptions S') (hg : S.SameGraph S') (hw : S'.G.costs = S.G.costs) (hp : S.SamePrizes S')
    (hq : S'.quota ≤ S.quota) {c : Int} (h : S.Finds .bfsPathExtensionCollapse c) : ∃ c', S'.Finds .bfsPathExtensionCollapse c' := by
  obtain ⟨t, h1, h2, rfl⟩ := h
  obtain ⟨small, k1, k2, k3⟩ := bfs_start S.graphOk S.envOk (.inr rfl) h1 h2.tour h2.three
  obtain ⟨u, a1, -⟩ := C52_path_extension_collapse S.env.float S.envOk.signSound S.G.edges S.G.costs S.G.prizes S.w S.π S.graphOk.describes S.graphOk.prizes S.root
    small k2 S.quota (S.collapsePaths.getD false) (fun _ => S.graphOk.costs) S.env.pick0 S.env.picks S.envOk.pick0 S.envOk.picks
    (orDefault S.depthLimit S.G.nx.nodes.length) (orDefault S.stepSize 10)
  have hrun : S.run .bfsPathExtensionCollapse = .ok (consec u) := runHeuristic_of_first S.envOk (by simp [usesSuurballe]) k1 a1
  obtain rfl : t = u := by
    rw [h1] at hrun
    exact eq_of_consec_eq (Res.ok.inj hrun) (by have := h2.three; omega)
  have hne : t ≠ [] := by
    rintro rfl
    have := h2.three; simp at this
  obtain ⟨s, b1, b2⟩ := pathExtensionCollapseBind_lower S.env.float S.envOk.signSound S.graphOk.describes S.graphOk.prizes k2 hq (fun _ => S.graphOk.costs)
    S.envOk.pick0 S.envOk.picks a1 hne
  have k1' : findCycleFromBfs S'.env.setOrder S'.G.nx S'.env.tree S'.root = .ok small := by rw [ho.setOrder, hg.nx, hg.tree, ho.root]; exact k1
  have k2' : IsTourIn S'.G.edges S'.root small := by rw [hg.edges, ho.root]; exact k2
  obtain ⟨u', c1, c2⟩ := C52_path_extension_collapse S'.env.float S'.envOk.signSound S'.G.edges S'.G.costs S'.G.prizes S'.w S'.π S'.graphOk.describes
    S'.graphOk.prizes S'.root small k2' S'.quota (S'.collapsePaths.getD false) (fun _ => S'.graphOk.costs) S'.env.pick0 S'.env.picks S'.envOk.pick0
    S'.envOk.picks (orDefault S'.depthLimit S'.G.nx.nodes.length) (orDefault S'.stepSize 10)
  have hsu : s = u' := by
    have c1' := c1
    rw [ho.float, hg.edges, hw, hp.prizes, ho.root, ho.collapsePaths, ho.pick0, ho.picks, ho.depthLimit, ho.stepSize, ho.nodes, b1] at c1'
    exact Res.ok.inj c1'
  subst hsu
  rcases c2 with ⟨c2, -⟩ | ⟨c2, c3, -, c4⟩
  · exact absurd c2 b2
  · exact ⟨_, s, runHeuristic_of_first S'.envOk (by simp [usesSuurballe]) k1' c1, ⟨c2, c4 k3, c3⟩, rfl⟩

end HeuristicSetting

end Pctsp
