import Verif.Props.OneRun

/-!
# How the results change with the instance (C126)
-/

namespace Pctsp

variable {V V' : Type} [DecidableEq V] [DecidableEq V']

omit [DecidableEq V] in
/-- A feasible tour stays feasible and gets no dearer when the quota falls, edges are added, costs fall and prizes rise. -/
theorem FeasibleIn.easier {es es' : List (V × V)} {w w' : V → V → Int} {π π' : V → Int} {q q' : Int} {root : V} {t : List V}
    (h : FeasibleIn es π q root t) (hsub : ∀ e ∈ es, AdjIn es' e.1 e.2) (hw : ∀ x y, AdjIn es x y → w' x y ≤ w x y) (hπ : ∀ x, π x ≤ π' x)
    (hq : q' ≤ q) : FeasibleIn es' π' q' root t ∧ namedCost w' t ≤ namedCost w t := by
  refine ⟨⟨⟨h.tour.shape, h.tour.nodup, fun p hp => ?_⟩, h.three, ?_⟩, ?_⟩
  · rcases h.tour.walk p hp with h1 | h1
    · exact hsub _ h1
    · exact (hsub _ h1).symm
  · have : namedPrize π t ≤ namedPrize π' t := List.sum_le_sum fun x _ => hπ x
    have := h.prize
    omega
  · exact List.sum_le_sum fun p hp => hw _ _ (h.tour.walk p hp)

/-- **C126**, exact runs on two instances of which the second is easier: its quota is not higher, it has every edge of the first at a cost that is not
higher, and its prizes are not lower.  If both are solved to optimality the second objective is not higher; if the second is optimal, the first run reports
nothing or an objective that is not lower; if the second is infeasible the first reports no tour. -/
theorem C126_easier {G G' : LabGraph V} {w w' : V → V → Int} {π π' : V → Int} {q q' : Int} {root : V} {f f' : PreprocessFlags} {mp mp' : ModelParams}
    {s s' : Option ScipStatus} {r r' : LabResult V} (hG : G.Ok w π) (hG' : G'.Ok w' π') (hno : ∀ e ∈ G.edges, e.1 ≠ e.2)
    (hno' : ∀ e ∈ G'.edges, e.1 ≠ e.2) (hh : mp.isHeuristic = false)
    (hh' : mp'.isHeuristic = false) (he : mp.isExact = true) (he' : mp'.isExact = true) (R : VialRun f G w π q root mp s r)
    (R' : VialRun f' G' w' π' q' root mp' s' r') (hcov : R.CoverOk) (hcov' : R'.CoverOk) (hsub : ∀ e ∈ G.edges, AdjIn G'.edges e.1 e.2)
    (hw : ∀ x y, AdjIn G.edges x y → w' x y ≤ w x y) (hπ : ∀ x, π x ≤ π' x) (hq : q' ≤ q) :
    (s = some .optimal → s' = some .optimal → r'.objective ≤ r.objective) ∧
    (s' = some .optimal → ReportsNothing r ∨ r'.objective ≤ r.objective) ∧
    (s' = some .infeasible → ReportsNothing r ∧ s ≠ some .optimal) := by
  obtain ⟨a1, a2, -⟩ := R.exact hG hno hh he hcov
  obtain ⟨-, b2, b3⟩ := R'.exact hG' hno' hh' he' hcov'
  have key : s' = some .optimal → ∀ t, FeasibleIn G.edges π q root t → r'.objective ≤ namedCost w t := by
    intro h t ht
    obtain ⟨t', -, c2, c3⟩ := b2 h
    obtain ⟨d1, d2⟩ := ht.easier hsub hw hπ hq
    rw [c2.objective]
    exact le_trans (c3 t d1) d2
  refine ⟨fun h h' => ?_, fun h' => ?_, fun h' => ?_⟩
  · obtain ⟨t, c1, c2, -⟩ := a2 h
    rw [c2.objective]
    exact key h' t c1
  · rcases a1 with h | ⟨t, c1, c2⟩
    · exact .inl h
    · exact .inr (by rw [c2.objective]; exact key h' t c1)
  · have hnone : ∀ t, ¬ FeasibleIn G.edges π q root t := fun t ht => (b3 h').2 t (ht.easier hsub hw hπ hq).1
    refine ⟨?_, fun h => ?_⟩
    · rcases a1 with h | ⟨t, c1, -⟩
      · exact h
      · exact absurd c1 (hnone t)
    · obtain ⟨t, c1, -⟩ := a2 h
      exact hnone t c1

/-- The second instance is the first one with other names for the vertices: the order and the direction of the edges may differ. -/
structure Renames (φ : V → V') (G : LabGraph V) (w : V → V → Int) (π : V → Int) (G' : LabGraph V') (w' : V' → V' → Int) (π' : V' → Int) : Prop where
  inj : ∀ x y, φ x = φ y → x = y
  adj : ∀ x y, AdjIn G'.edges (φ x) (φ y) ↔ AdjIn G.edges x y
  onto : ∀ e ∈ G'.edges, ∃ x y, e = (φ x, φ y)
  cost : ∀ x y, w' (φ x) (φ y) = w x y
  prize : ∀ x, π' (φ x) = π x

omit [DecidableEq V] [DecidableEq V'] in
theorem Renames.feasible {φ : V → V'} {G : LabGraph V} {w : V → V → Int} {π : V → Int} {G' : LabGraph V'} {w' : V' → V' → Int} {π' : V' → Int}
    (h : Renames φ G w π G' w' π') {q : Int} {root : V} (t : List V) :
    (FeasibleIn G'.edges π' q (φ root) (t.map φ) ↔ FeasibleIn G.edges π q root t) ∧ namedCost w' (t.map φ) = namedCost w t := by
  have hp : namedPrize π' (t.map φ) = namedPrize π t := by
    simp only [namedPrize, ← List.map_dropLast, List.map_map]
    congr 1
    exact List.map_congr_left fun x _ => h.prize x
  refine ⟨⟨fun hf => ⟨⟨?_, ?_, fun p hp => ?_⟩, by simpa using hf.three, by rw [← hp]; exact hf.prize⟩,
    fun hf => ⟨⟨?_, ?_, fun p hp => ?_⟩, by simpa using hf.three, by rw [hp]; exact hf.prize⟩⟩, ?_⟩
  · obtain ⟨m, hm⟩ := hf.tour.shape
    cases t with
    | nil => simp at hm
    | cons a t =>
      simp only [List.map_cons, List.cons.injEq] at hm
      obtain ⟨e, hm⟩ := hm
      obtain rfl := h.inj _ _ e
      obtain ⟨m', e', rfl, hm', he⟩ := List.map_eq_append_iff.1 hm
      obtain ⟨y, rfl, hy⟩ := List.map_eq_singleton_iff.1 he
      obtain rfl := h.inj _ _ hy
      exact ⟨m', rfl⟩
  · have := hf.tour.nodup
    rw [← List.map_dropLast] at this
    exact this.of_map
  · exact (h.adj _ _).1 (hf.tour.walk (φ p.1, φ p.2) (by rw [consec_map]; exact List.mem_map_of_mem hp))
  · obtain ⟨m, rfl⟩ := hf.tour.shape
    exact ⟨m.map φ, by simp⟩
  · rw [← List.map_dropLast]
    exact hf.tour.nodup.map fun x y e => h.inj x y e
  · rw [consec_map] at hp
    obtain ⟨p', hp', rfl⟩ := List.mem_map.1 hp
    exact (h.adj _ _).2 (hf.tour.walk p' hp')
  · simp only [namedCost, consec_map, List.map_map]
    congr 1
    exact List.map_congr_left fun p _ => h.cost _ _

omit [DecidableEq V] [DecidableEq V'] in
/-- Every feasible tour of the renamed instance is a renamed tour. -/
theorem Renames.preimage {φ : V → V'} {G : LabGraph V} {w : V → V → Int} {π : V → Int} {G' : LabGraph V'} {w' : V' → V' → Int} {π' : V' → Int}
    (h : Renames φ G w π G' w' π') {q : Int} {root : V} {t : List V'} (ht : FeasibleIn G'.edges π' q (φ root) t) : ∃ t₀ : List V, t = t₀.map φ := by
  have hw := ht.tour.walk
  obtain ⟨m, hm⟩ := ht.tour.shape
  rw [hm] at hw
  have : ∀ (l : List V') (x : V), (∀ p ∈ consec (φ x :: l), AdjIn G'.edges p.1 p.2) → ∃ l₀ : List V, l = l₀.map φ := by
    intro l
    induction l with
    | nil => exact fun _ _ => ⟨[], rfl⟩
    | cons y l ih =>
      intro x hx
      have h1 : AdjIn G'.edges (φ x) y := hx (φ x, y) (by simp [consec])
      have : ∃ z, y = φ z := by
        rcases h1 with h1 | h1
        · obtain ⟨a, b, e⟩ := h.onto _ h1
          exact ⟨b, (Prod.mk.inj e).2⟩
        · obtain ⟨a, b, e⟩ := h.onto _ h1
          exact ⟨a, (Prod.mk.inj e).1⟩
      obtain ⟨z, rfl⟩ := this
      obtain ⟨l₀, rfl⟩ := ih z fun p hp => hx p (by simp only [consec, List.tail_cons, List.zip_cons_cons, List.mem_cons] at hp ⊢; exact .inr hp)
      exact ⟨z :: l₀, rfl⟩
  obtain ⟨l₀, e⟩ := this _ root hw
  exact ⟨root :: l₀, by rw [hm, List.map_cons, e]⟩

/-- **C126**, exact runs on an instance and on the same instance with other names: the order in which the edges are listed, their directions and the names
of the vertices change neither the optimum nor whether there is a solution. -/
theorem C126_renamed {φ : V → V'} {G : LabGraph V} {G' : LabGraph V'} {w : V → V → Int} {w' : V' → V' → Int} {π : V → Int} {π' : V' → Int} {q : Int}
    {root : V} {f f' : PreprocessFlags} {mp mp' : ModelParams} {s s' : Option ScipStatus} {r : LabResult V} {r' : LabResult V'} (hG : G.Ok w π)
    (hG' : G'.Ok w' π') (hno : ∀ e ∈ G.edges, e.1 ≠ e.2) (hno' : ∀ e ∈ G'.edges, e.1 ≠ e.2)
    (hh : mp.isHeuristic = false) (hh' : mp'.isHeuristic = false) (he : mp.isExact = true)
    (he' : mp'.isExact = true) (R : VialRun f G w π q root mp s r) (R' : VialRun f' G' w' π' q (φ root) mp' s' r') (hcov : R.CoverOk)
    (hcov' : R'.CoverOk) (hφ : Renames φ G w π G' w' π') :
    (s = some .optimal → s' = some .optimal → r'.objective = r.objective) ∧
    (s = some .optimal → s' ≠ some .infeasible ∧ (ReportsNothing r' ∨ r.objective ≤ r'.objective)) ∧
    (s' = some .optimal → s ≠ some .infeasible ∧ (ReportsNothing r ∨ r'.objective ≤ r.objective)) ∧
    (s = some .infeasible → ReportsNothing r') ∧ (s' = some .infeasible → ReportsNothing r) := by
  obtain ⟨a1, a2, a3⟩ := R.exact hG hno hh he hcov
  obtain ⟨b1, b2, b3⟩ := R'.exact hG' hno' hh' he' hcov'
  have k1 : s = some .optimal → ∀ t, FeasibleIn G'.edges π' q (φ root) t → r.objective ≤ namedCost w' t := by
    intro h t ht
    obtain ⟨t₀, rfl⟩ := hφ.preimage ht
    obtain ⟨u, -, c2, c3⟩ := a2 h
    rw [c2.objective, (hφ.feasible (q := q) (root := root) t₀).2]
    exact c3 _ ((hφ.feasible t₀).1.1 ht)
  have k2 : s' = some .optimal → ∀ t, FeasibleIn G.edges π q root t → r'.objective ≤ namedCost w t := by
    intro h t ht
    obtain ⟨u, -, c2, c3⟩ := b2 h
    rw [c2.objective, ← (hφ.feasible (q := q) (root := root) t).2]
    exact c3 _ ((hφ.feasible t).1.2 ht)
  refine ⟨fun h h' => ?_, fun h => ⟨fun h' => ?_, ?_⟩, fun h' => ⟨fun h => ?_, ?_⟩, fun h => ?_, fun h' => ?_⟩
  · obtain ⟨t, c1, c2, -⟩ := a2 h
    obtain ⟨t', d1, d2, -⟩ := b2 h'
    have e1 := k1 h t' d1
    have e2 := k2 h' t c1
    rw [← c2.objective] at e2
    rw [← d2.objective] at e1
    omega
  · obtain ⟨t, c1, -, -⟩ := a2 h
    exact (b3 h').2 _ ((hφ.feasible t).1.2 c1)
  · rcases b1 with h' | ⟨t, c1, c2⟩
    · exact .inl h'
    · exact .inr (by rw [c2.objective]; exact k1 h t c1)
  · obtain ⟨t, c1, -, -⟩ := b2 h'
    obtain ⟨t₀, rfl⟩ := hφ.preimage c1
    exact (a3 h).2 _ ((hφ.feasible t₀).1.1 c1)
  · rcases a1 with h | ⟨t, c1, c2⟩
    · exact .inl h
    · exact .inr (by rw [c2.objective]; exact k2 h' t c1)
  · rcases b1 with h' | ⟨t, c1, -⟩
    · exact h'
    · obtain ⟨t₀, rfl⟩ := hφ.preimage c1
      exact absurd ((hφ.feasible t₀).1.1 c1) ((a3 h).2 _)
  · rcases a1 with h | ⟨t, c1, -⟩
    · exact h
    · exact absurd ((hφ.feasible t).1.2 c1) ((b3 h').2 _)

section suurballe

variable {F W : Type} [LinearOrder W] {A : DiGraph W} {tail head : V → W} {names : SplitNames V W} {dij : DijkstraOut W} {depth : Nat} {T : STree W}
  {st : SState W}

/-- A tour that repeats no vertex costs what the map says. -/
theorem SuurballeOn.closes_cost {U : NxGraph V} {cost : V → V → Int} {r : V} (h : SuurballeOn U cost A tail head names r dij depth T st)
    (hr : r ∉ U.adj r) {m : List (V × (List V × List V))} (hm : undirectedVertexDisjointPathsMap names T st (treeNodes (head r) dij) = .ok m)
    {e : V × (List V × List V)} (hmem : e ∈ m) {t : List V} (ht : ClosesTo e.2 t) (hn : t.dropLast.Nodup) {c : Int}
    (hc : dictGet (vertexDisjointCostMap names T st (treeNodes (head r) dij)) e.1 = some c) : namedCost cost t = c := by
  obtain ⟨m', h1, h2, h3⟩ := h.pathsMap
  obtain rfl : m' = m := by rw [h1] at hm; exact Res.ok.inj hm
  obtain ⟨v, pq⟩ := e
  obtain ⟨c', a, b, k4, k5, rfl⟩ := h3 v pq hmem fun _ => hr
  have hv : v ≠ r := by
    rintro rfl
    have e := ht.unique ⟨v, v, a, b, rfl, rfl, rfl⟩
    rw [e] at hn
    have e : v :: (a ++ v :: (b.reverse ++ [v])) = (v :: (a ++ v :: b.reverse)) ++ [v] := by simp
    rw [e, List.dropLast_concat] at hn
    simp at hn
  obtain ⟨vs, q1, -, -, q4⟩ := disjointWalks_round h.und h.symm hv k5
  have e := ht.unique q1
  rw [e]
  rw [hc] at k4
  rw [Option.some.inj k4]
  exact q4

/-- **C126**, Suurballe's heuristic: with a lower quota it returns a tour whenever it did with a higher one, and no dearer one. -/
theorem C126_suurballe {env : LabEnv F V} {G : LabGraph V} {w : V → V → Int} {π : V → Int} {root : V} (hG : G.Ok w π) (hE : env.Ok G π root)
    (hS : SuurballeOn G.nx w A tail head names root dij depth T st) (hl : root ∉ G.nx.adj root)
    (hne : vertexDisjointCostMap names T st (treeNodes (head root) dij) ≠ []) {q q' : Int} (hq : q' ≤ q) (cp : Option Bool) (dl ss : Option Int) :
    ∃ m t t', undirectedVertexDisjointPathsMap names T st (treeNodes (head root) dij) = .ok m ∧
      runHeuristic env G q root .suurballesHeuristic (vertexDisjointCostMap names T st (treeNodes (head root) dij)) m cp dl ss = .ok (consec t) ∧
      runHeuristic env G q' root .suurballesHeuristic (vertexDisjointCostMap names T st (treeNodes (head root) dij)) m cp dl ss = .ok (consec t') ∧
      (t ≠ [] → FeasibleIn G.edges π q root t ∧ FeasibleIn G.edges π q' root t' ∧ namedCost w t' ≤ namedCost w t) := by
  obtain ⟨m, hm, h2, h3⟩ := hS.pathsMap
  have hmne : m ≠ [] := by
    rintro rfl
    simp at h2
    exact hne h2
  have hent : ∀ e ∈ m, (∃ t, ClosesTo e.2 t) ∧ ∃ c, dictGet (vertexDisjointCostMap names T st (treeNodes (head root) dij)) e.1 = some c := by
    rintro ⟨v, pq⟩ hm
    obtain ⟨c, a, b, k1, -, rfl⟩ := h3 v pq hm fun _ => hl
    exact ⟨⟨_, root, v, a, b, rfl, rfl, rfl⟩, c, k1⟩
  obtain ⟨t, a1, a2, a3⟩ := C72_heuristic maxsize env.prizeOf q (dictGet (vertexDisjointCostMap names T st (treeNodes (head root) dij))) m hent
  obtain ⟨t', b1, b2, b3⟩ := C72_heuristic maxsize env.prizeOf q' (dictGet (vertexDisjointCostMap names T st (treeNodes (head root) dij))) m hent
  refine ⟨m, t, t', hm, runHeuristic_of_first (small := []) hE (fun _ => ⟨hne, hmne⟩) rfl a1,
    runHeuristic_of_first (small := []) hE (fun _ => ⟨hne, hmne⟩) rfl b1, fun ht => ?_⟩
  obtain ⟨A, e, B, c, rfl, c1, c2, c3, -⟩ := a3 ht
  have hq' : Qualifies env.prizeOf q' maxsize c t := ⟨c3.1, by have := c3.2.1; omega, c3.2.2⟩
  have ht' : t' ≠ [] := fun e0 => b2.1 e0 e (by simp) t c c1 c2 hq'
  have feas : ∀ q, ∀ u, suurballesHeuristic maxsize env.prizeOf q (dictGet (vertexDisjointCostMap names T st (treeNodes (head root) dij)))
      (A ++ e :: B) = .ok u → u ≠ [] → FeasibleIn G.edges π q root u := by
    intro q u hu hune
    obtain ⟨m', u', d1, d2, d3, -⟩ := C85_heuristic hS hl env.prizeOf q
    obtain rfl : A ++ e :: B = m' := by rw [hm] at d1; exact Res.ok.inj d1
    obtain rfl : u = u' := by rw [hu] at d2; exact Res.ok.inj d2
    obtain ⟨vs, rfl, k1, k2, -⟩ := d3 hune
    have htour := hG.tour k1
    refine ⟨htour, ?_, by rw [← hE.prizeOf _ htour]; exact k2⟩
    have := k1.long; simp at this ⊢; omega
  refine ⟨feas q t a1 ht, feas q' t' b1 ht', ?_⟩
  obtain ⟨A', e', B', c', hm', d1, d2, d3, d4, d5⟩ := b3 ht'
  have hmem : e ∈ A' ++ e' :: B' := by rw [← hm']; simp
  have hmem' : e' ∈ A ++ e :: B := by rw [hm']; simp
  rw [hS.closes_cost hl hm hmem' d1 d3.2.2 d2, hS.closes_cost hl hm (e := e) (by simp) c1 c3.2.2 c2]
  rcases List.mem_append.1 hmem with h | h
  · exact (d4 e h t c c1 c2 hq').le
  · rcases List.mem_cons.1 h with rfl | h
    · rw [c2] at d2; exact (Option.some.inj d2).ge
    · exact d5 e h t c c1 c2 hq'

end suurballe

/-! ## The heuristics that start from a cycle of a breadth first search -/

def dearCost (x y : Fin 4) : Int :=
  if (x = 0 ∧ y = 1) ∨ (x = 1 ∧ y = 0) then 6 else if (x = 2 ∧ y = 3) ∨ (x = 3 ∧ y = 2) then 4 else 2

def dearPrize (x : Fin 4) : Int := if x = 1 then 3 else 2

def dearLab : LabGraph (Fin 4) := labGraph [(0, 1), (0, 2), (0, 3), (1, 2), (2, 3)] dearCost dearPrize

/-- The graph without its dearest edge. -/
def lessLab : LabGraph (Fin 4) := labGraph [(0, 2), (0, 3), (1, 2), (2, 3)] dearCost dearPrize

/-- **C126**, the heuristics that start from a cycle of a breadth first search are not monotone.  There is an instance on which both return a tour of cost 10
for the quota 4 but one of cost 8 for the quota 5, and one of cost 8 for the quota 4 if an edge is removed. -/
theorem C126_not_monotone : ∃ (G G' : LabGraph (Fin 4)) (w : Fin 4 → Fin 4 → Int) (π : Fin 4 → Int), G.Ok w π ∧ G'.Ok w π ∧
    (∀ e ∈ G'.edges, e ∈ G.edges) ∧ (plainEnv G π 0).Ok G π 0 ∧ (plainEnv G' π 0).Ok G' π 0 ∧
    ∀ alg ∈ [AlgorithmName.bfsExtensionCollapse, .bfsPathExtensionCollapse], ∃ t t' t'',
      runHeuristic (plainEnv G π 0) G 4 0 alg [] [] (some true) (some 3) (some 1) = .ok (consec t) ∧
      runHeuristic (plainEnv G π 0) G 5 0 alg [] [] (some true) (some 3) (some 1) = .ok (consec t') ∧
      runHeuristic (plainEnv G' π 0) G' 4 0 alg [] [] (some true) (some 3) (some 1) = .ok (consec t'') ∧
      FeasibleIn G.edges π 4 0 t ∧ FeasibleIn G.edges π 5 0 t' ∧ FeasibleIn G'.edges π 4 0 t'' ∧ namedCost w t = 10 ∧
      namedCost w t' = 8 ∧ namedCost w t'' = 8 := by
  have h1 : dearLab.Ok dearCost dearPrize := labGraph_ok (by decide) (by decide) (by decide) (by decide) (by decide)
  have h2 : lessLab.Ok dearCost dearPrize := labGraph_ok (by decide) (by decide) (by decide) (by decide) (by decide)
  refine ⟨dearLab, lessLab, dearCost, dearPrize, h1, h2, by decide, plainEnv_ok h1 (by decide), plainEnv_ok h2 (by decide), fun alg ha => ?_⟩
  refine ⟨[0, 1, 2, 0], [0, 3, 2, 0], [0, 2, 3, 0], ?_, ?_, ?_, ⟨⟨⟨[1, 2], rfl⟩, by decide, by decide⟩, by decide, by decide⟩,
    ⟨⟨⟨[3, 2], rfl⟩, by decide, by decide⟩, by decide, by decide⟩, ⟨⟨⟨[2, 3], rfl⟩, by decide, by decide⟩, by decide, by decide⟩, by decide, by decide,
    by decide⟩
  all_goals
    revert alg
    decide +kernel

/-! ## Instances that meet the hypotheses -/

/-- The complete graph with its edges in another order and direction. -/
def flipLab : LabGraph (Fin 4) := { fourLab with edges := fourLab.edges.reverse.map Prod.swap }

theorem flipLab_adj : ∀ x y, AdjIn flipLab.edges x y ↔ AdjIn fourLab.edges x y := by decide

theorem flipLab_ok : flipLab.Ok fourCost (fun _ => 1) where
  wf := fourLab_ok.wf
  describes := by
    have h := fourLab_ok.describes
    refine { h with distinct := by decide, costOk := ?_, allCosts := ?_, prizeOk := ?_, allPrizes := ?_ }
    · exact fun p c hp => ⟨(h.costOk p c hp).1, (flipLab_adj _ _).2 (h.costOk p c hp).2⟩
    · intro e he
      obtain ⟨p, c, h1, h2⟩ := h.allCosts e.swap (by
        obtain ⟨p, hp, rfl⟩ := List.mem_map.1 he
        simpa using hp)
      refine ⟨p, c, h1, ?_⟩
      obtain ⟨a, b⟩ := e
      unfold SameEdge at h2 ⊢
      simpa [or_comm] using h2
    · have : ∀ x, x ∈ endpoints flipLab.edges := by decide
      intro x c hx
      exact ⟨(h.prizeOk x c hx).1, this x⟩
    · have : ∀ x, x ∈ endpoints fourLab.edges := by decide
      exact fun x _ => h.allPrizes x (this x)
  adj := fun x y => by rw [flipLab_adj]; exact fourLab_ok.adj x y
  prizes := fourLab_ok.prizes
  costs := fourLab_ok.costs

theorem fourLike_run {G : LabGraph (Fin 4)} (hok : G.Ok fourCost (fun _ => 1)) (hnx : G.nx = fourLab.nx) (hres : G.restrict fourLab.nx = G)
    (hno : ∀ e ∈ G.edges, e.1 ≠ e.2) (hroot : 0 ∈ endpoints G.edges) {q : Int} {t : List (Fin 4)} (ht : FeasibleIn G.edges (fun _ => 1) q 0 t) :
    ∃ r, ∃ R : VialRun (londonaqFlags false) G fourCost (fun _ => 1) q 0 (londonaqParams false false fourHours .solvePctsp).model (some .optimal) r,
      R.CoverOk := by
  obtain ⟨scip, hscip⟩ := exists_scip_keeps 1 List.range
  have hon : SuurballeOn G.nx fourCost fourSplit (fun v => v.val) (fun v => v.val + 4) (plainNames 4) 0 fourDij 10 fourRun.1 fourRun.2 := by
    rw [hnx]; exact fourLab_on
  have hr : (0 : Fin 4) ∈ G.nx.nodes := by rw [hnx]; decide
  obtain ⟨s, r, h1, -, -, h4, -⟩ := C92_exact (quota := q) (mp := (londonaqParams false false fourHours .solvePctsp).model) hok
    (oneEnv_ok hok (root := 0) hr t) hno hroot hon fourPaths_eq (oneEnv_sound ht) reorderOk_none rfl rfl (fun alg h => by cases h) (order := List.range)
    (fun n => List.Perm.refl _) (fun P => (hscip P).1) (fun h => by cases h) (fun h => by cases h)
  obtain ⟨P, hP⟩ := runAlgorithm_status h1
  obtain rfl : s = .optimal := (hP ▸ (hscip P).2.2 : s = .optimal ∨ s = .infeasible).resolve_right fun h => (h4 h).2 _ ht
  refine ⟨r, ⟨Ext, Nat, oneEnv G (fun _ => 1) 0 t, fun g _ => g.nodes, fun _ => [[0, 1, 2, 3]], 10, fourLab.nx,
    fourSplit, fun v => v.val, fun v => v.val + 4, plainNames 4, fourDij, 10, fourRun.1, fourRun.2, scip, List.range, fun _ => none,
    by rw [hnx]; exact fourLab_preprocessed, ?_, ?_, fourLab_on, reorderOk_none, fun n => List.Perm.refl _, fun P => (hscip P).1, ?_⟩,
    ⟨fun h => (by cases h), fun h => (by cases h)⟩⟩
  · rw [hres]; exact oneEnv_ok hok hr _
  · rw [hres]; exact oneEnv_sound ht
  · have hrun := fourLab_preprocessed.run
    simp only [runVial, londonaqFlags, hnx, hrun, Res.ok_bind, hres]
    rw [if_pos (by decide)]
    exact h1

theorem flipLab_restrict : flipLab.restrict fourLab.nx = flipLab := by
  have h1 : (flipLab.restrict fourLab.nx).edges = flipLab.edges := by decide
  have h2 : (flipLab.restrict fourLab.nx).costs = flipLab.costs := by decide
  have h3 : (flipLab.restrict fourLab.nx).prizes = flipLab.prizes := by decide
  have h4 : (flipLab.restrict fourLab.nx).nx = flipLab.nx := rfl
  cases hx : flipLab.restrict fourLab.nx
  rw [hx] at h1 h2 h3 h4
  cases hy : flipLab
  rw [hy] at h1 h2 h3 h4
  exact LabGraph.mk.injEq .. ▸ ⟨h4, h1, h2, h3⟩

/-- The hypotheses of `C126_easier` with the quotas 4 and 3. -/
example : ∃ (r r' : LabResult (Fin 4)) (R : VialRun (londonaqFlags false) fourLab fourCost (fun _ => 1) 4 0
      (londonaqParams false false fourHours .solvePctsp).model (some .optimal) r)
    (R' : VialRun (londonaqFlags false) fourLab fourCost (fun _ => 1) 3 0 (londonaqParams false false fourHours .solvePctsp).model (some .optimal) r'),
    R.CoverOk ∧ R'.CoverOk := by
  obtain ⟨r, R, h⟩ := fourLike_run fourLab_ok rfl fourLab_restrict (by decide) (by decide) (q := 4) (t := [0, 1, 3, 2, 0])
    ⟨⟨⟨[1, 3, 2], rfl⟩, by decide, by decide⟩, by decide, by decide⟩
  obtain ⟨r', R', h'⟩ := fourLike_run fourLab_ok rfl fourLab_restrict (by decide) (by decide) (q := 3) fourLab_feasible
  exact ⟨r, r', R, R', h, h'⟩

/-- The hypotheses of `C126_renamed`: the edges are listed in another order and direction. -/
example : ∃ (r r' : LabResult (Fin 4)) (R : VialRun (londonaqFlags false) fourLab fourCost (fun _ => 1) 3 0
      (londonaqParams false false fourHours .solvePctsp).model (some .optimal) r)
    (R' : VialRun (londonaqFlags false) flipLab fourCost (fun _ => 1) 3 0 (londonaqParams false false fourHours .solvePctsp).model (some .optimal) r'),
    R.CoverOk ∧ R'.CoverOk ∧ Renames id fourLab fourCost (fun _ => 1) flipLab fourCost (fun _ => 1) ∧ flipLab.edges ≠ fourLab.edges := by
  obtain ⟨r, R, h⟩ := fourLike_run fourLab_ok rfl fourLab_restrict (by decide) (by decide) (q := 3) fourLab_feasible
  obtain ⟨r', R', h'⟩ := fourLike_run flipLab_ok rfl flipLab_restrict (by decide) (by decide) (q := 3) (t := [0, 2, 1, 0])
    ⟨⟨⟨[2, 1], rfl⟩, by decide, by decide⟩, by decide, by decide⟩
  exact ⟨r, r', R, R', h, h', ⟨fun _ _ h => h, flipLab_adj, fun e _ => ⟨e.1, e.2, rfl⟩, fun _ _ => rfl, fun _ => rfl⟩, by decide⟩

/-- Other names for the vertices: the dearest edge joins 0 and 1, and after the renaming 3 and 0. -/
example : Renames (fun x : Fin 4 => x + 3) dearLab dearCost dearPrize
    (labGraph [(3, 0), (1, 3), (3, 2), (0, 1), (1, 2)] (fun x y => dearCost (x + 1) (y + 1)) fun x => dearPrize (x + 1))
    (fun x y => dearCost (x + 1) (y + 1)) fun x => dearPrize (x + 1) :=
  ⟨by decide, by decide, fun e _ => ⟨e.1 + 1, e.2 + 1, by revert e; decide⟩, by decide, by decide⟩

/-- The hypotheses of `C126_suurballe`, and both tours: for the quota 3 the triangle, for 4 nothing. -/
example : SuurballeOn fourLab.nx fourCost fourSplit (fun v => v.val) (fun v => v.val + 4) (plainNames 4) 0 fourDij 10 fourRun.1 fourRun.2 ∧
    (0 : Fin 4) ∉ fourLab.nx.adj 0 ∧ vertexDisjointCostMap (plainNames 4) fourRun.1 fourRun.2 (treeNodes 4 fourDij) ≠ [] ∧
    (plainEnv fourLab (fun _ => 1) 0).Ok fourLab (fun _ => 1) 0 ∧
    runHeuristic (plainEnv fourLab (fun _ => 1) 0) fourLab 3 0 .suurballesHeuristic fourCosts fourPaths none none none = .ok (consec [0, 2, 1, 0]) ∧
    runHeuristic (plainEnv fourLab (fun _ => 1) 0) fourLab 4 0 .suurballesHeuristic fourCosts fourPaths none none none = .ok [] :=
  ⟨fourLab_on, by decide, by rw [fourCosts_eq]; decide, plainEnv_ok fourLab_ok (by decide), by decide +kernel, by decide +kernel⟩

end Pctsp
