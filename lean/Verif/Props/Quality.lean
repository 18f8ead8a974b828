import Verif.Props.Monotone
import Verif.Props.Satisfiable

/-!
# C128: how good the tours of Suurballe's heuristic are
-/

namespace Pctsp

section paths

variable {F V W : Type} [DecidableEq V] [LinearOrder W] {A : DiGraph W} {tail head : V → W} {names : SplitNames V W} {dij : DijkstraOut W} {depth : Nat}
  {T : STree W} {st : SState W}

/-- What Suurballe's heuristic finds; the other two heuristics that need the maps of disjoint paths start from the tour it finds. -/
theorem suurballes_found {env : LabEnv F V} {G : LabGraph V} {w : V → V → Int} {π : V → Int} {root : V} (hG : G.Ok w π) (hE : env.Ok G π root)
    (hS : SuurballeOn G.nx w A tail head names root dij depth T st) (hl : root ∉ G.nx.adj root) (quota : Int) :
    ∃ m t, undirectedVertexDisjointPathsMap names T st (treeNodes (head root) dij) = .ok m ∧
      suurballesHeuristic maxsize env.prizeOf quota (dictGet (vertexDisjointCostMap names T st (treeNodes (head root) dij))) m = .ok t ∧
      (m = [] → vertexDisjointCostMap names T st (treeNodes (head root) dij) = []) ∧
      (t ≠ [] → vertexDisjointCostMap names T st (treeNodes (head root) dij) ≠ [] ∧
        suurballesInit maxsize env.prizeOf quota (dictGet (vertexDisjointCostMap names T st (treeNodes (head root) dij))) m = .ok t ∧
        FeasibleIn G.edges π quota root t ∧ ∃ v ∈ t, v ≠ root ∧ ∀ c, TourThrough G.nx w root v c → namedCost w t ≤ c) ∧
      ∀ v c, v ≠ root → TourThrough G.nx w root v c → (∀ c', TourThrough G.nx w root v c' → c ≤ c') → c < maxsize →
        (∀ l, NxCycle G.nx (root :: l) → v ∈ l → namedCost w (root :: (l ++ [root])) = c → quota ≤ namedPrize π (root :: (l ++ [root]))) →
        t ≠ [] ∧ namedCost w t ≤ c := by
  obtain ⟨m, hm, hkeys, hpaths⟩ := C85_paths hS
  obtain ⟨m', t, h1, h2, h3, -⟩ := C85_heuristic hS hl env.prizeOf quota
  obtain rfl : m' = m := by rw [hm] at h1; exact (Res.ok.inj h1).symm
  have hent : ∀ e ∈ m', (∃ t, ClosesTo e.2 t) ∧ ∃ c, dictGet (vertexDisjointCostMap names T st (treeNodes (head root) dij)) e.1 = some c := by
    obtain ⟨m'', k1, -, k3⟩ := hS.pathsMap
    obtain rfl : m'' = m' := by rw [hm] at k1; exact (Res.ok.inj k1).symm
    rintro ⟨v, pq⟩ hmem
    obtain ⟨c, a, b, k1, -, rfl⟩ := k3 v pq hmem fun _ => hl
    exact ⟨⟨_, root, v, a, b, rfl, rfl, rfl⟩, c, k1⟩
  obtain ⟨t', a1, a2, a3⟩ := C72_heuristic maxsize env.prizeOf quota (dictGet (vertexDisjointCostMap names T st (treeNodes (head root) dij))) m' hent
  obtain rfl : t' = t := by rw [h2] at a1; exact (Res.ok.inj a1).symm
  refine ⟨m', t', hm, h2, fun e => ?_, fun ht => ⟨?_, ?_, ?_, ?_⟩, fun v c hv hc hmin hlt hq => ?_⟩
  · rw [e] at hkeys
    simpa using hkeys.symm
  · obtain ⟨A, e, B, c', rfl, d1, d2, -⟩ := a3 ht
    intro hnil
    rw [hnil] at d2
    cases d2
  · obtain ⟨t₀, k1, k2, -⟩ := C73_init maxsize env.prizeOf quota (dictGet (vertexDisjointCostMap names T st (treeNodes (head root) dij))) m' hent
    obtain ⟨A, e, B, c', rfl, d1, d2, d3, -⟩ := a3 ht
    have := k2 ⟨e, by simp, t', c', d1, d2, d3⟩
    rw [h2] at this
    rw [k1, Res.ok.inj this]
  · obtain ⟨vs, rfl, k1, k2, -⟩ := h3 ht
    have htour := hG.tour k1
    refine ⟨htour, ?_, by rw [← hE.prizeOf _ htour]; exact k2⟩
    have := k1.long; simp at this ⊢; omega
  · obtain ⟨vs, rfl, k1, -, v, hv, k3⟩ := h3 ht
    refine ⟨v, by simp [hv], ?_, k3⟩
    rintro rfl
    exact (List.nodup_cons.1 k1.nodup).1 hv
  · obtain ⟨c₀, hc₀⟩ : ∃ c₀, dictGet (vertexDisjointCostMap names T st (treeNodes (head root) dij)) v = some c₀ := by
      cases hn : dictGet (vertexDisjointCostMap names T st (treeNodes (head root) dij)) v with
      | none => exact absurd (C85_no_entry hS hv hn hc) (not_le.2 hlt)
      | some c₀ => exact ⟨c₀, rfl⟩
    obtain ⟨e1, e2⟩ := C85_entry hS hv hc₀
    obtain rfl : c₀ = c := le_antisymm (e2 c hc) (hmin c₀ e1)
    have hnod : (m'.map Prod.fst).Nodup := by rw [hkeys]; exact hS.costMap_nodup
    obtain ⟨pq, hpq⟩ : ∃ pq, (v, pq) ∈ m' := by
      have : v ∈ m'.map Prod.fst := by
        rw [hkeys]
        rw [dictGet_eq_some hS.costMap_nodup] at hc₀
        exact List.mem_map.2 ⟨_, hc₀, rfl⟩
      obtain ⟨⟨_, pq⟩, k1, rfl⟩ := List.mem_map.1 this
      exact ⟨pq, k1⟩
    obtain ⟨vs, k1, k2, k3, k4⟩ := hpaths v pq hv ((dictGet_eq_some hnod).2 hpq)
    rw [hc₀, Option.some.injEq] at k4
    have hqual : Qualifies env.prizeOf quota maxsize c₀ (root :: (vs ++ [root])) := by
      refine ⟨hlt, ?_, by rw [← List.cons_append, List.dropLast_concat]; exact k2.nodup⟩
      rw [hE.prizeOf _ (hG.tour k2)]
      exact hq vs k2 k3 k4.symm
    have hne' : t' ≠ [] := fun e0 => a2.1 e0 _ hpq _ _ k1 hc₀ hqual
    refine ⟨hne', ?_⟩
    obtain ⟨A, e, B, c', rfl, d1, d2, d3, d4, d5⟩ := a3 hne'
    rw [hS.closes_cost hl hm (e := e) (by simp) d1 d3.2.2 d2]
    rcases List.mem_append.1 hpq with h | h
    · exact (d4 _ h _ _ k1 hc₀ hqual).le
    · rcases List.mem_cons.1 h with rfl | h
      · exact le_of_eq (by rw [hc₀] at d2; exact (Option.some.inj d2).symm)
      · exact d5 _ h _ _ k1 hc₀ hqual

end paths

section runs

variable {V : Type} [DecidableEq V] {G : LabGraph V} {w : V → V → Int} {π : V → Int} {root : V} {flags : PreprocessFlags} {quota : Int} {mp : ModelParams}
  {s : Option ScipStatus} {r : LabResult V}

/-- The same for the maps that a run has computed, in terms of the graph before the preprocessing. -/
theorem VialRun.suurballes_first (hG : G.Ok w π) (hno : ∀ e ∈ G.edges, e.1 ≠ e.2) (hc : ∃ vs, NxCycle G.nx vs ∧ root ∈ vs) (hh : mp.isHeuristic = true)
    (ha : usesSuurballe mp.algorithm = true) (R : VialRun flags G w π quota root mp s r) :
    letI := R.ord
    ∃ m t, undirectedVertexDisjointPathsMap R.names R.T R.st (treeNodes (R.head root) R.dij) = .ok m ∧
      vertexDisjointCostMap R.names R.T R.st (treeNodes (R.head root) R.dij) ≠ [] ∧ m ≠ [] ∧
      suurballesHeuristic maxsize R.env.prizeOf quota (dictGet (vertexDisjointCostMap R.names R.T R.st (treeNodes (R.head root) R.dij))) m = .ok t ∧
      (t ≠ [] → suurballesInit maxsize R.env.prizeOf quota (dictGet (vertexDisjointCostMap R.names R.T R.st (treeNodes (R.head root) R.dij))) m = .ok t ∧
        FeasibleIn (G.restrict R.h).edges π quota root t ∧ ∃ v ∈ t, v ≠ root ∧ ∀ c, TourThrough G.nx w root v c → namedCost w t ≤ c) ∧
      ∀ v c, v ≠ root → TourThrough G.nx w root v c → (∀ c', TourThrough G.nx w root v c' → c ≤ c') → c < maxsize →
        (∀ l, NxCycle G.nx (root :: l) → v ∈ l → namedCost w (root :: (l ++ [root])) = c → quota ≤ namedPrize π (root :: (l ++ [root]))) →
        t ≠ [] ∧ namedCost w t ≤ c := by
  letI := R.ord
  obtain ⟨c1, c2, c3, c4⟩ := C99_ok hG R.preprocessed hc
  obtain ⟨-, hcyc, -⟩ := C70_tours_kept R.component R.components R.limit flags G.nx R.h root hG.wf R.preprocessed.comp R.preprocessed.bicomp R.preprocessed.run
  have hthr : ∀ v c, TourThrough (G.restrict R.h).nx w root v c ↔ TourThrough G.nx w root v c := by
    intro v c
    refine exists_congr fun m => ?_
    show NxCycle R.h _ ∧ _ ↔ _
    rw [hcyc _ (by simp)]
  have hno' : ∀ e ∈ (G.restrict R.h).edges, e.1 ≠ e.2 := fun e he => hno e (List.mem_filter.1 he).1
  have hl : root ∉ (G.restrict R.h).nx.adj root := by
    intro h
    rcases (c1.adj _ _).1 h with h | h <;> exact hno' _ h rfl
  have hrun := R.run
  simp only [runVial, R.preprocessed.run, Res.ok_bind, if_pos c3] at hrun
  obtain ⟨m, t, hm, h1, h2, h3, h4⟩ := suurballes_found c1 R.envOk R.suurballe hl quota
  have hne : vertexDisjointCostMap R.names R.T R.st (treeNodes (R.head root) R.dij) ≠ [] := by
    intro hnil
    have : runHeuristic R.env (G.restrict R.h) quota root mp.algorithm (vertexDisjointCostMap R.names R.T R.st (treeNodes (R.head root) R.dij)) m none
        mp.depthLimit mp.stepSize = .throw .valueError := by
      rw [runHeuristic, ha, hnil]; rfl
    simp only [runAlgorithm, R.suurballe.run, Res.ok_bind, hm, algorithmEdges, hh, if_true, this] at hrun
    cases hrun
  refine ⟨m, t, hm, hne, fun e => hne (h2 e), h1, fun ht => ?_, fun v c hv hc hmin hlt hq => ?_⟩
  · obtain ⟨-, k1, k2, v, k3, k4, k5⟩ := h3 ht
    exact ⟨k1, k2, v, k3, k4, fun c hc => k5 c ((hthr v c).2 hc)⟩
  · exact h4 v c hv ((hthr v c).2 hc) (fun c' hc' => hmin c' ((hthr v c').1 hc')) hlt (fun l hl => hq l ((hcyc _ (by simp)).1 hl))

/-- What a heuristic run reports is what the heuristic returns. -/
theorem VialRun.reports_of (hG : G.Ok w π) (hno : ∀ e ∈ G.edges, e.1 ≠ e.2) (hc : ∃ vs, NxCycle G.nx vs ∧ root ∈ vs) (hh : mp.isHeuristic = true)
    (R : VialRun flags G w π quota root mp s r) {m : List (V × (List V × List V))}
    (hm : letI := R.ord; undirectedVertexDisjointPathsMap R.names R.T R.st (treeNodes (R.head root) R.dij) = .ok m) {t : List V}
    (hes : letI := R.ord; runHeuristic R.env (G.restrict R.h) quota root mp.algorithm
      (vertexDisjointCostMap R.names R.T R.st (treeNodes (R.head root) R.dij)) m none mp.depthLimit mp.stepSize = .ok (consec t))
    (ht : t = [] ∨ IsTourIn (G.restrict R.h).edges root t) : (t = [] → ReportsNothing r) ∧ (t ≠ [] → Reports w π t r) := by
  letI := R.ord
  obtain ⟨c1, c2, c3, c4⟩ := C99_ok hG R.preprocessed hc
  have hno' : ∀ e ∈ (G.restrict R.h).edges, e.1 ≠ e.2 := fun e he => hno e (List.mem_filter.1 he).1
  have hrun := R.run
  simp only [runVial, R.preprocessed.run, Res.ok_bind, if_pos c3] at hrun
  obtain ⟨r₁, r1, r2, r3⟩ := C92_heuristic (π := π) c1 hno' R.suurballe hm R.reorderOk hh R.scip R.order hes ht
  rw [hrun] at r1
  obtain ⟨-, rfl⟩ := Prod.mk.inj (Res.ok.inj r1)
  exact ⟨r2, r3⟩

/-- What a run of Suurballe's heuristic reports. -/
theorem VialRun.suurballes_tour (hG : G.Ok w π) (hno : ∀ e ∈ G.edges, e.1 ≠ e.2) (hc : ∃ vs, NxCycle G.nx vs ∧ root ∈ vs) (hh : mp.isHeuristic = true)
    (ha : mp.algorithm = .suurballesHeuristic) (R : VialRun flags G w π quota root mp s r) :
    ∃ t, (t = [] → ReportsNothing r) ∧
      (t ≠ [] → FeasibleIn G.edges π quota root t ∧ Reports w π t r ∧ ∃ v ∈ t, v ≠ root ∧ ∀ c, TourThrough G.nx w root v c → namedCost w t ≤ c) ∧
      ∀ v c, v ≠ root → TourThrough G.nx w root v c → (∀ c', TourThrough G.nx w root v c' → c ≤ c') → c < maxsize →
        (∀ l, NxCycle G.nx (root :: l) → v ∈ l → namedCost w (root :: (l ++ [root])) = c → quota ≤ namedPrize π (root :: (l ++ [root]))) →
        t ≠ [] ∧ namedCost w t ≤ c := by
  letI := R.ord
  obtain ⟨m, t, hm, hne, hmne, h1, h2, h3⟩ := R.suurballes_first hG hno hc hh (by rw [ha]; rfl)
  have hes := runHeuristic_of_first (small := []) (cp := none) (dl := mp.depthLimit) (ss := mp.stepSize) (alg := .suurballesHeuristic) R.envOk
    (fun _ => ⟨hne, hmne⟩) rfl h1
  obtain ⟨r1, r2⟩ := R.reports_of hG hno hc hh hm (t := t) (by rw [ha]; exact hes) (by
    by_cases e : t = []
    · exact .inl e
    · exact .inr (h2 e).2.1.tour)
  exact ⟨t, r1, fun ht => ⟨(C99_tours hG R.preprocessed quota t).1 (h2 ht).2.1, r2 ht, (h2 ht).2.2⟩, h3⟩

/-- **C128.** A guarantee: if all the cheapest tours through the root and some other vertex meet the quota, and cost less than `sys.maxsize`, then Suurballe's
heuristic reports a feasible tour that costs no more than these. -/
theorem C128_bound (hG : G.Ok w π) (hno : ∀ e ∈ G.edges, e.1 ≠ e.2) (hh : mp.isHeuristic = true) (ha : mp.algorithm = .suurballesHeuristic)
    (R : VialRun flags G w π quota root mp s r) {v : V} {t : List V} (hv : v ∈ t) (hr : v ≠ root) (ht : FeasibleIn G.edges π quota root t)
    (hlt : namedCost w t < maxsize)
    (hmin : ∀ q t', FeasibleIn G.edges π q root t' → v ∈ t' → namedCost w t ≤ namedCost w t' ∧ (namedCost w t' = namedCost w t → quota ≤ namedPrize π t')) :
    ∃ t', FeasibleIn G.edges π quota root t' ∧ Reports w π t' r ∧ namedCost w t' ≤ namedCost w t := by
  obtain ⟨l, rfl, hl, hq⟩ := (feasibleIn_iff hG.wf hG.adj).1 ht
  have hvl : v ∈ l := by simpa [hr] using hv
  obtain ⟨t', -, h2, h3⟩ := R.suurballes_tour hG hno ⟨_, hl, by simp⟩ hh ha
  have hf : ∀ l', NxCycle G.nx (root :: l') → FeasibleIn G.edges π (namedPrize π (root :: (l' ++ [root]))) root (root :: (l' ++ [root])) :=
    fun l' h => (feasibleIn_iff hG.wf hG.adj).2 ⟨l', rfl, h, le_rfl⟩
  obtain ⟨h4, h5⟩ := h3 v (namedCost w (root :: (l ++ [root]))) hr ⟨l, hl, by simp [hvl], rfl⟩ (by
    rintro c' ⟨l', k1, k2, rfl⟩
    exact (hmin _ _ (hf l' k1) (by simpa [hr] using k2)).1) hlt (fun l' k1 k2 k3 => (hmin _ _ (hf l' k1) (by simp [k2])).2 k3)
  exact ⟨t', (h2 h4).1, (h2 h4).2.1, h5⟩

/-- **C128.** If every tour from the root meets the quota, and one of them costs less than `sys.maxsize`, Suurballe's heuristic reports an optimal tour. -/
theorem C128_optimal (hG : G.Ok w π) (hno : ∀ e ∈ G.edges, e.1 ≠ e.2) (hh : mp.isHeuristic = true) (ha : mp.algorithm = .suurballesHeuristic)
    (R : VialRun flags G w π quota root mp s r) (hall : ∀ q t, FeasibleIn G.edges π q root t → quota ≤ namedPrize π t)
    (hex : ∃ q t, FeasibleIn G.edges π q root t ∧ namedCost w t < maxsize) :
    ∃ t, FeasibleIn G.edges π quota root t ∧ Reports w π t r ∧ ∀ t', FeasibleIn G.edges π quota root t' → namedCost w t ≤ namedCost w t' := by
  have hup : ∀ q t, FeasibleIn G.edges π q root t → FeasibleIn G.edges π quota root t := fun q t h => ⟨h.tour, h.three, hall q t h⟩
  have hw : ∀ t, 0 ≤ namedCost w t := fun t => List.sum_nonneg (by
    simp only [List.mem_map]
    rintro _ ⟨p, -, rfl⟩
    exact hG.costs _ _)
  obtain ⟨q₀, t₀, h0, hlt⟩ := hex
  obtain ⟨_, ⟨t, ht, rfl⟩, hmin⟩ := Int.exists_least_of_bdd (P := fun z => ∃ t, FeasibleIn G.edges π quota root t ∧ namedCost w t = z)
    ⟨0, by rintro _ ⟨t, -, rfl⟩; exact hw t⟩ ⟨_, t₀, hup _ _ h0, rfl⟩
  have hmin' : ∀ t', FeasibleIn G.edges π quota root t' → namedCost w t ≤ namedCost w t' := fun t' h => hmin _ ⟨t', h, rfl⟩
  obtain ⟨l, rfl, hl, -⟩ := (feasibleIn_iff hG.wf hG.adj).1 ht
  match l, hl with
  | [], hl => have := hl.long; simp at this
  | v :: l, hl =>
    have hv : v ≠ root := fun e => by have := hl.nodup; simp [e] at this
    obtain ⟨t', k1, k2, k3⟩ := C128_bound hG hno hh ha R (v := v) (by simp) hv ht (lt_of_le_of_lt (hmin' _ (hup _ _ h0)) hlt)
      (fun q t' h _ => ⟨hmin' _ (hup _ _ h), fun _ => hall _ _ h⟩)
    exact ⟨t', k1, k2, fun t'' h => k3.trans (hmin' t'' h)⟩

end runs

/-! ## No constant factor -/

/-- The vertex 4 is dear. -/
def trapCost (K : Nat) (x y : Fin 5) : Int := if x = 4 ∨ y = 4 then 4 * K + 1 else 1
def trapPrize (x : Fin 5) : Int := if x = 4 then 2 else 1
def trapEdges : List (Fin 5 × Fin 5) := [(0, 1), (1, 2), (0, 2), (2, 3), (0, 3), (0, 4), (4, 1)]
def trapLab (K : Nat) : LabGraph (Fin 5) := labGraph trapEdges (trapCost K) trapPrize

/-- The numbers of dear and of other edges of a walk. -/
def trapCount (t : List (Fin 5)) : Nat × Nat :=
  ((consec t).countP fun p => p.1 = 4 ∨ p.2 = 4, (consec t).countP fun p => ¬ (p.1 = 4 ∨ p.2 = 4))

theorem trapLab_ok (K : Nat) : (trapLab K).Ok (trapCost K) trapPrize :=
  labGraph_ok (by decide) (fun x y => by simp only [trapCost, or_comm]) (by decide) (by decide) (fun x y => by unfold trapCost; split <;> omega)

theorem trap_cost (K : Nat) (t : List (Fin 5)) : namedCost (trapCost K) t = (4 * K + 1) * (trapCount t).1 + (trapCount t).2 := by
  simp only [namedCost, trapCount]
  induction consec t with
  | nil => simp
  | cons p l ih =>
    rw [List.map_cons, List.sum_cons, ih, List.countP_cons, List.countP_cons]
    by_cases h : p.1 = 4 ∨ p.2 = 4
    · simp [trapCost, h]; ring
    · simp [trapCost, h]; ring

/-- The tours of the graph: those through the dear vertex have two dear edges and another one and meet the quota 4; the others meet it only with four edges. -/
theorem trap_tours {t : List (Fin 5)} {q : Int} (ht : FeasibleIn trapEdges trapPrize q 0 t) :
    (4 ∈ t → (trapCount t).1 = 2 ∧ 1 ≤ (trapCount t).2 ∧ 4 ≤ namedPrize trapPrize t) ∧
    (4 ∉ t → (trapCount t).1 = 0 ∧ (4 ≤ namedPrize trapPrize t → 4 ≤ (trapCount t).2)) := by
  obtain ⟨⟨⟨m, rfl⟩, hn, hw⟩, h3, -⟩ := ht
  have hlen : m.length ≤ 4 := by
    rw [← List.cons_append, List.dropLast_concat] at hn
    have := hn.length_le_card
    simp at this
    omega
  match m, hlen with
  | [], _ => simp at h3
  | [a], _ => simp at h3
  | [a, b], _ => clear h3; revert a b; decide +kernel
  | [a, b, c], _ => clear h3; revert a b c; decide +kernel
  | [a, b, c, d], _ => clear h3; revert a b c d; decide +kernel

theorem trap_cycle : NxCycle (trapLab 0).nx [0, 1, 2] := ⟨by decide, by decide, by decide, by unfold NxWalk; decide +kernel⟩

theorem trap_simple : ∀ e ∈ trapEdges, e.1 ≠ e.2 := by decide
theorem trap_optimal : FeasibleIn trapEdges trapPrize 4 0 [0, 1, 2, 3, 0] := ⟨⟨⟨[1, 2, 3], rfl⟩, by decide, by decide⟩, by decide, by decide⟩
theorem trap_first : FeasibleIn trapEdges trapPrize 3 0 [0, 1, 2, 0] := ⟨⟨⟨[1, 2], rfl⟩, by decide, by decide⟩, by decide, by decide⟩
theorem trap_second : FeasibleIn trapEdges trapPrize 3 0 [0, 2, 3, 0] := ⟨⟨⟨[2, 3], rfl⟩, by decide, by decide⟩, by decide, by decide⟩
theorem trap_dear : FeasibleIn trapEdges trapPrize 4 0 [0, 4, 1, 0] := ⟨⟨⟨[4, 1], rfl⟩, by decide, by decide⟩, by decide, by decide⟩

/-- **C128.** There is no constant factor.  For every number there is an instance with a feasible tour of cost 4 on which Suurballe's heuristic always returns, but
whatever it reports is nothing, or a tour that costs more than that number times 4; and unless the number is astronomic, it does report such a tour. -/
theorem C128_factor (K : Nat) : ∃ (G : LabGraph (Fin 5)) (w : Fin 5 → Fin 5 → Int) (π : Fin 5 → Int) (t : List (Fin 5)), G.Ok w π ∧ (∀ e ∈ G.edges, e.1 ≠ e.2) ∧
    FeasibleIn G.edges π 4 0 t ∧ namedCost w t = 4 ∧
    ∀ flags mp, flags.shortestPathCutoff = false ∧ flags.disjointPathCutoff = false → mp.isHeuristic = true → mp.algorithm = .suurballesHeuristic →
      (∃ r, Nonempty (VialRun flags G w π 4 0 mp none r)) ∧
      ∀ s r, VialRun flags G w π 4 0 mp s r →
        (ReportsNothing r ∨ ∃ t', FeasibleIn G.edges π 4 0 t' ∧ Reports w π t' r ∧ K * 4 < r.objective) ∧ (8 * (K : Int) + 3 < maxsize → ¬ ReportsNothing r) := by
  have hfeas : FeasibleIn (trapLab K).edges trapPrize 4 0 [0, 1, 2, 3, 0] := trap_optimal
  have hopt : namedCost (trapCost K) [0, 1, 2, 3, 0] = 4 := by
    rw [trap_cost, show trapCount [0, 1, 2, 3, 0] = (0, 4) by decide]
    simp
  have hcost : ∀ t, FeasibleIn (trapLab K).edges trapPrize 3 0 t → (trapCount t).1 = 0 → (trapCount t).2 = 3 →
      ∀ v ∈ t, v ≠ 0 → TourThrough (trapLab K).nx (trapCost K) 0 v 3 := by
    intro t ht h1 h2 v hv _
    obtain ⟨m, rfl, hm, -⟩ := (feasibleIn_iff (trapLab_ok K).wf (trapLab_ok K).adj).1 ht
    refine ⟨m, hm, ?_, (trap_cost K _).trans ?_⟩
    · rw [← List.cons_append, List.mem_append] at hv
      exact hv.elim id fun h => by simp at h; simp [h]
    · rw [h1, h2]
      simp
  have hcyc : ∃ vs, NxCycle (trapLab K).nx vs ∧ 0 ∈ vs := ⟨_, trap_cycle, by decide⟩
  refine ⟨trapLab K, trapCost K, trapPrize, [0, 1, 2, 3, 0], trapLab_ok K, trap_simple, hfeas, hopt, fun flags mp hf hh ha => ⟨?_, fun s r R => ?_⟩⟩
  · obtain ⟨r, h, -⟩ := C127_heuristics (trapLab_ok K) trap_simple hcyc 4 hf hh (.inr (.inr ⟨ha, _, _, hfeas, by rw [hopt]; decide⟩))
    exact ⟨r, h⟩
  · obtain ⟨t, h1, h2, h3⟩ := R.suurballes_tour (trapLab_ok K) trap_simple hcyc hh ha
    have hbig : t ≠ [] → (K : Int) * 4 < r.objective := by
      intro hne
      obtain ⟨k1, k2, v, hv, hv0, k3⟩ := h2 hne
      obtain ⟨j1, j2⟩ := trap_tours k1
      rw [k2.objective]
      have hc := trap_cost K t
      by_cases h4 : 4 ∈ t
      · obtain ⟨i1, i2, -⟩ := j1 h4
        rw [i1] at hc
        push_cast at hc
        omega
      · obtain ⟨i1, i2⟩ := j2 h4
        have i3 := i2 k1.prize
        have hv4 : v ≠ 4 := fun e => h4 (e ▸ hv)
        have : TourThrough (trapLab K).nx (trapCost K) 0 v 3 := by
          by_cases hv3 : v = 3
          · exact hcost [0, 2, 3, 0] trap_second (by decide) (by decide) v (by simp [hv3]) hv0
          · refine hcost [0, 1, 2, 0] trap_first (by decide) (by decide) v ?_ hv0
            clear * - hv0 hv4 hv3
            revert v
            decide
        have := k3 3 this
        rw [i1] at hc
        push_cast at hc
        omega
    refine ⟨?_, fun hlt hnot => ?_⟩
    · by_cases e : t = []
      · exact .inl (h1 e)
      · exact .inr ⟨t, (h2 e).1, (h2 e).2.1, hbig e⟩
    · have key : ∀ l, NxCycle (trapLab K).nx (0 :: l) → 4 ∈ l → 2 * (4 * (K : Int) + 1) + 1 ≤ namedCost (trapCost K) (0 :: (l ++ [0])) ∧
          4 ≤ namedPrize trapPrize (0 :: (l ++ [0])) := by
        intro l hl h4
        obtain ⟨j1, -⟩ := trap_tours ((feasibleIn_iff (trapLab_ok K).wf (trapLab_ok K).adj).2 ⟨l, rfl, hl, le_rfl⟩)
        obtain ⟨i1, i2, i3⟩ := j1 (by simp [h4])
        refine ⟨?_, i3⟩
        rw [trap_cost, i1]
        push_cast
        omega
      have hdear : FeasibleIn (trapLab K).edges trapPrize 4 0 [0, 4, 1, 0] := trap_dear
      obtain ⟨m, hm, hm', -⟩ := (feasibleIn_iff (trapLab_ok K).wf (trapLab_ok K).adj).1 hdear
      have hc : namedCost (trapCost K) [0, 4, 1, 0] = 2 * (4 * (K : Int) + 1) + 1 := by
        rw [trap_cost, show trapCount [0, 4, 1, 0] = (2, 1) by decide]
        push_cast
        ring
      obtain rfl : m = [4, 1] := by
        have : (0 :: m) ++ [0] = [0, 4, 1] ++ [0] := by simpa using hm.symm
        simpa using List.append_cancel_right this
      obtain ⟨k1, -⟩ := h3 4 (2 * (4 * (K : Int) + 1) + 1) (by decide) ⟨[4, 1], hm', by decide, hc⟩ (by
        rintro c' ⟨l, hl, h4, rfl⟩
        exact (key l hl (by simpa using h4)).1) (by omega) fun l hl h4 _ => (key l hl h4).2
      have := hbig k1
      rw [hnot.objective] at this
      omega

/-! ## Examples -/

/-- On the complete graph with four vertices every tour meets the quota 3, and the heuristic has a run. -/
example : (∃ r, Nonempty (VialRun ⟨false, false, true, false, false⟩ fourLab fourCost (fun _ => 1) 3 0
      (heuristicRun .suurballesHeuristic none none none).model none r)) ∧
    (∀ q t, FeasibleIn fourLab.edges (fun _ => 1) q 0 t → 3 ≤ namedPrize (fun _ => 1) t) ∧
    (FeasibleIn fourLab.edges (fun _ => 1) 3 0 [0, 2, 1, 0] ∧ namedCost fourCost [0, 2, 1, 0] < maxsize) ∧
    ∀ q t', FeasibleIn fourLab.edges (fun _ => 1) q 0 t' → 1 ∈ t' → namedCost fourCost [0, 2, 1, 0] ≤ namedCost fourCost t' ∧
      (namedCost fourCost t' = namedCost fourCost [0, 2, 1, 0] → 3 ≤ namedPrize (fun _ => 1) t') := by
  have hall : ∀ q t, FeasibleIn fourLab.edges (fun _ => 1) q 0 t → 3 ≤ namedPrize (fun _ => 1) t := by
    rintro q t ⟨⟨⟨m, rfl⟩, -, -⟩, h3, -⟩
    rw [namedPrize, ← List.cons_append, List.dropLast_concat]
    simp at h3 ⊢
    omega
  refine ⟨?_, hall, ⟨fourLab_feasible, by decide⟩, fun q t' ht _ => ⟨fourLab_cheapest ⟨ht.tour, ht.three, hall q t' ht⟩, fun _ => hall q t' ht⟩⟩
  obtain ⟨r, h, -⟩ := C127_heuristics fourLab_ok (by decide) ⟨[0, 1, 2], ⟨by decide, by decide, by decide, by unfold NxWalk; decide +kernel⟩, by decide⟩ 3
    (flags := ⟨false, false, true, false, false⟩) ⟨rfl, rfl⟩ (mp := (heuristicRun .suurballesHeuristic none none none).model) rfl
    (.inr (.inr ⟨rfl, _, _, fourLab_feasible, by decide⟩))
  exact ⟨r, h⟩

end Pctsp
