import Verif.Lemmas.SuurballeExtract
import Verif.Lemmas.SuurballeExamples

/-!
# C78–C82: Suurballe's algorithm for pairs of edge-disjoint paths
-/

set_option linter.unusedSectionVars false

namespace Pctsp

variable {V : Type} [LinearOrder V] {G : DiGraph V} {s : V} {dij : DijkstraOut V}

/-! ## C78: numbering the tree -/

/-- C78.  If the interpreter allows as many nested calls as the longest shortest path has vertices, `preorder` and `postorder` list every
vertex of the tree once, the attribute is the position in the list, and `is_ancestor` is true exactly for the vertices on the shortest path. -/
theorem C78_numbers (h : IsDijkstra G s dij) {depth : Nat} (hd : ∀ x ∈ dij.distKeys, (dij.path x).length ≤ depth) :
    ∃ pre post A B, preorder (treeSucc s dij.pathKeys dij.path) depth s = .ok (pre, A) ∧
      postorder (treeSucc s dij.pathKeys dij.path) depth s = .ok (post, B) ∧ A.Perm dij.distKeys ∧ B.Perm dij.distKeys ∧
      (∀ x ∈ dij.distKeys, pre x = A.idxOf x ∧ post x = B.idxOf x) ∧
      ∀ a ∈ dij.distKeys, ∀ b ∈ dij.distKeys, (isAncestor pre post a b = true ↔ a ∈ dij.path b) :=
  orders_ok h hd

/-- In the first list a vertex is before, in the second list behind all its descendants. -/
theorem C78_order (h : IsDijkstra G s dij) {depth : Nat} {pre post : V → Int} {A B : List V}
    (hA : preorder (treeSucc s dij.pathKeys dij.path) depth s = .ok (pre, A)) (hB : postorder (treeSucc s dij.pathKeys dij.path) depth s = .ok (post, B)) :
    ∀ b ∈ dij.distKeys, ∀ a ∈ dij.path b, a ≠ b → A.idxOf a < A.idxOf b ∧ B.idxOf b < B.idxOf a := by
  have hh : HeightLE (kids s dij) depth s := by
    rcases preorderRec_outcome (kids s dij) depth s (fun _ => maxsize, []) with ⟨_, h1⟩ | ⟨h1, _⟩
    · exact h1
    · rw [preorder, h1] at hA; cases hA
  rw [heightLE_iff h depth s h.source] at hh
  obtain ⟨pre', post', A', B', h1, h2, h3, h4, h5, h6⟩ := orders_ok h (n := depth) fun x hx => by
    have := hh x hx (h.source_mem_path hx)
    rw [h.pathSource] at this
    simp at this; omega
  rw [h1] at hA
  rw [h2] at hB
  injection hA with hA
  injection hB with hB
  injection hA with e1 e2
  injection hB with e3 e4
  subst e1 e2 e3 e4
  intro b hb a ha hab
  have hak := h.key_of_mem hb ha
  have h7 := (h6 a hak b hb).2 ha
  simp only [isAncestor, Bool.and_eq_true, decide_eq_true_eq, (h5 a hak).1, (h5 b hb).1, (h5 a hak).2, (h5 b hb).2] at h7
  have n1 : A'.idxOf a ≠ A'.idxOf b := fun e => hab ((List.idxOf_inj (h3.mem_iff.2 hak)).1 e)
  have n2 : B'.idxOf a ≠ B'.idxOf b := fun e => hab ((List.idxOf_inj (h4.mem_iff.2 hak)).1 e)
  omega

/-- Otherwise both raise `RecursionError`, and so does the algorithm. -/
theorem C78_recursion (h : IsDijkstra G s dij) {depth : Nat} (hd : ∃ x ∈ dij.distKeys, depth < (dij.path x).length) :
    preorder (treeSucc s dij.pathKeys dij.path) depth s = .throw .recursionError ∧
      postorder (treeSucc s dij.pathKeys dij.path) depth s = .throw .recursionError ∧ suurballe G dij depth s = .throw .recursionError := by
  have hh : ¬ HeightLE (kids s dij) depth s := by
    rw [heightLE_iff h depth s h.source]
    obtain ⟨x, hx, hlt⟩ := hd
    intro h1
    have := h1 x hx (h.source_mem_path hx)
    rw [h.pathSource] at this
    simp at this; omega
  have h1 : preorder (treeSucc s dij.pathKeys dij.path) depth s = .throw .recursionError := by
    rcases preorderRec_outcome (kids s dij) depth s (fun _ => maxsize, []) with ⟨_, h1⟩ | ⟨h1, _⟩
    · exact absurd h1 hh
    · exact h1
  have h2 : postorder (treeSucc s dij.pathKeys dij.path) depth s = .throw .recursionError := by
    rcases postorderRec_outcome (kids s dij) depth s (fun _ => maxsize, []) with ⟨_, h1⟩ | ⟨h1, _⟩
    · exact absurd h1 hh
    · exact h1
  refine ⟨h1, h2, ?_⟩
  unfold suurballe buildTree
  simp only
  rw [h1, Res.throw_bind, Res.throw_bind]

example : IsDijkstra missGraph 0 missDij ∧ (∀ x ∈ missDij.distKeys, (missDij.path x).length ≤ 4) ∧
    (∃ x ∈ missDij.distKeys, 3 < (missDij.path x).length) := ⟨missDij_ok, by decide, by decide⟩

/-! ## C79: transformed costs -/

theorem dist_telescope (l : List V) (w : V → V → Int) (d : V → Int) (u v : V) (hu : l.head? = some u) (hv : l.getLast? = some v) :
    walkWeight (fun a b => adjustEdgeCost (w a b) (d a) (d b)) l = walkWeight w l + d u - d v := by
  induction l generalizing u with
  | nil => simp at hu
  | cons a l ih =>
    simp at hu
    subst hu
    cases l with
    | nil => simp at hv; subst hv; simp [walkWeight]
    | cons b l =>
      have := ih b rfl (by simpa using hv)
      simp only [walkWeight, consec_cons_cons, List.map_cons, List.sum_cons, adjustEdgeCost] at this ⊢
      omega

/-- C79.  The transformed cost of an edge between reached vertices is not negative, and zero on the edges of the shortest paths; the
transformed cost of a walk is its cost plus the distance of its first minus the distance of its last vertex.  So the transformation keeps
the order of the walks between two vertices. -/
theorem C79_adjusted (h : IsDijkstra G s dij) :
    (∀ u ∈ dij.distKeys, ∀ v ∈ G.succ u, 0 ≤ adjustEdgeCost (G.weight u v) (dij.dist u) (dij.dist v)) ∧
    (∀ x ∈ dij.distKeys, ∀ e ∈ consec (dij.path x), adjustEdgeCost (G.weight e.1 e.2) (dij.dist e.1) (dij.dist e.2) = 0) ∧
    ∀ u v l, DWalkFrom G u v l → walkWeight (fun a b => adjustEdgeCost (G.weight a b) (dij.dist a) (dij.dist b)) l =
      walkWeight G.weight l + dij.dist u - dij.dist v := by
  refine ⟨fun u hu v hv => adjCost_nonneg h hu hv, ?_, fun u v l hl => dist_telescope l _ _ u v hl.head hl.last⟩
  intro x hx
  refine h.tree_induction (P := fun x => ∀ e ∈ consec (dij.path x), adjustEdgeCost (G.weight e.1 e.2) (dij.dist e.1) (dij.dist e.2) = 0) ?_ ?_ x hx
  · rw [h.pathSource]; simp
  · intro u v huv _ _ ih e he
    obtain ⟨m, hm⟩ := h.path_last huv.parentKey
    rw [huv.path, hm, List.append_assoc, List.singleton_append, consec_append, List.mem_append, ← hm] at he
    rcases he with he | he
    · exact ih e he
    · simp at he
      subst he
      exact (huv.edge h).2.1

/-- The paths are shortest walks: what the transformation relies on. -/
theorem C79_shortest (h : IsDijkstra G s dij) {v : V} (hv : v ∈ dij.distKeys) : DWalkFrom G s v (dij.path v) ∧
    walkWeight G.weight (dij.path v) = dij.dist v ∧ ∀ l, DWalkFrom G s v l → dij.dist v ≤ walkWeight G.weight l := by
  have hp : ∀ x ∈ dij.distKeys, DWalkFrom G s x (dij.path x) ∧ walkWeight G.weight (dij.path x) = dij.dist x := by
    intro x hx
    refine h.tree_induction (P := fun x => DWalkFrom G s x (dij.path x) ∧ walkWeight G.weight (dij.path x) = dij.dist x) ?_ ?_ x hx
    · rw [h.pathSource, h.distSource]
      exact ⟨⟨rfl, rfl, by simp [DWalk]⟩, by simp [walkWeight]⟩
    · intro u v huv _ hd ih
      obtain ⟨m, hm⟩ := h.path_last huv.parentKey
      rw [huv.path, hm]
      rw [hm] at ih
      exact ⟨ih.1.snoc (huv.edge h).1, by rw [walkWeight_snoc, ih.2, hd]⟩
  refine ⟨(hp v hv).1, (hp v hv).2, ?_⟩
  intro l hl
  have hadj : ∀ m : List V, (∀ a, m.head? = some a → a ∈ dij.distKeys) → DWalk G m →
      0 ≤ walkWeight (fun a b => adjustEdgeCost (G.weight a b) (dij.dist a) (dij.dist b)) m := by
    intro m
    induction m with
    | nil => intro _ _; simp [walkWeight]
    | cons a m ih =>
      intro ha hm
      cases m with
      | nil => simp [walkWeight]
      | cons b m =>
        have hab : b ∈ G.succ a := hm (a, b) (by simp)
        have hak := ha a rfl
        have h1 := ih (fun c hc => by simp at hc; subst hc; exact (h.relaxed a hak b hab).1) (fun e he => hm e (by
          rw [consec_cons_cons]; exact List.mem_cons_of_mem _ he))
        have h2 := adjCost_nonneg h hak hab
        simp only [walkWeight, consec_cons_cons, List.map_cons, List.sum_cons] at h1 ⊢
        simp only [adjCost] at h2
        omega
  have h1 := hadj l (fun a ha => by rw [hl.head] at ha; injection ha with ha; subst ha; exact h.source) hl.walk
  rw [dist_telescope l _ _ s v hl.head hl.last, h.distSource] at h1
  omega

example : missGraph.WF ∧ IsDijkstra missGraph 0 missDij ∧ 3 ∈ missDij.distKeys ∧ DWalkFrom missGraph 0 3 [0, 3] :=
  ⟨missGraph_wf, missDij_ok, by decide, rfl, rfl, by intro e he; simp at he; subst he; decide⟩

/-! ## C80: the algorithm terminates and raises nothing -/

/-- C80.  On every directed graph without loops and with costs that are not negative, the algorithm terminates and raises nothing, if the
interpreter allows enough nested calls; otherwise it raises `RecursionError`. -/
theorem C80_total (hg : G.WF) (h : IsDijkstra G s dij) (depth : Nat) :
    ((∀ x ∈ dij.distKeys, (dij.path x).length ≤ depth) ∧ ∃ T st, suurballe G dij depth s = .ok (T, st)) ∨
    ((∃ x ∈ dij.distKeys, depth < (dij.path x).length) ∧ suurballe G dij depth s = .throw .recursionError) := by
  by_cases hd : ∀ x ∈ dij.distKeys, (dij.path x).length ≤ depth
  · obtain ⟨T, st, h1, _⟩ := suurballe_run hg h hd
    exact .inl ⟨hd, T, st, h1⟩
  · right
    have hd : ∃ x ∈ dij.distKeys, depth < (dij.path x).length := by
      by_contra hno
      exact hd fun x hx => by
        by_contra hlt
        exact hno ⟨x, hx, by omega⟩
    exact ⟨hd, (C78_recursion h hd).2.2⟩

/-- The answer of a call. -/
theorem run_of_ok (hg : G.WF) (h : IsDijkstra G s dij) {depth : Nat} {T : STree V} {st : SState V} (hok : suurballe G dij depth s = .ok (T, st)) :
    TreeOK G s dij T ∧ Relation.ReflTransGen (Turn s dij T) (initState G dij T) st ∧ st.heap = [] := by
  rcases C80_total hg h depth with ⟨hd, _⟩ | ⟨_, h1⟩
  · obtain ⟨T', st', h1, h2⟩ := suurballe_run hg h hd
    rw [hok] at h1
    injection h1 with h1
    injection h1 with e1 e2
    subst e1 e2
    exact h2
  · rw [hok] at h1; cases h1

/-- The source costs nothing. -/
theorem C80_source (hg : G.WF) (h : IsDijkstra G s dij) {depth : Nat} {T : STree V} {st : SState V} (hok : suurballe G dij depth s = .ok (T, st)) :
    edgeDisjointPathCost T st s = 0 := by
  obtain ⟨hT, hr, _⟩ := run_of_ok hg h hok
  obtain ⟨ord, hd⟩ := suurballe_dinv hg h hT hr
  rw [edgeDisjointPathCost, hd.src, hT.dist, h.distSource]
  simp [maxsize]

example : missGraph.WF ∧ missGraph.Asymmetric ∧ IsDijkstra missGraph 0 missDij ∧
    (match suurballe missGraph missDij 4 0 with | .ok _ => true | _ => false) = true ∧
    (match suurballe missGraph missDij 3 0 with | .throw .recursionError => true | _ => false) = true :=
  ⟨missGraph_wf, missGraph_asymmetric, missDij_ok, by decide +kernel, by decide +kernel⟩

/-! ## C81: the reported cost -/

/-- C81.  A reported cost that is not `sys.maxsize` is never too low: there are two paths without a common edge that together cost at most as
much. -/
theorem C81_sound (hg : G.WF) (h : IsDijkstra G s dij) {depth : Nat} {T : STree V} {st : SState V} (hok : suurballe G dij depth s = .ok (T, st))
    {t : V} (ht : t ∈ dij.distKeys) (hc : edgeDisjointPathCost T st t ≠ maxsize) :
    ∃ c ≤ edgeDisjointPathCost T st t, EdgeDisjointPair G s t c := by
  obtain ⟨hT, hr, _⟩ := run_of_ok hg h hok
  have hfin : st.tent t ≠ maxsize := fun e => hc (by rw [edgeDisjointPathCost, if_pos e])
  rw [edgeDisjointPathCost, if_neg hfin, hT.dist]
  exact ((suurballe_certified hg h hT hr).2 t hfin).pair hg h ht

/-- The reported cost is not less than twice the distance. -/
theorem C81_lower (hg : G.WF) (h : IsDijkstra G s dij) {depth : Nat} {T : STree V} {st : SState V} (hok : suurballe G dij depth s = .ok (T, st))
    {t : V} (hc : edgeDisjointPathCost T st t ≠ maxsize) : 2 * dij.dist t ≤ edgeDisjointPathCost T st t := by
  obtain ⟨hT, hr, _⟩ := run_of_ok hg h hok
  obtain ⟨ord, hd⟩ := suurballe_dinv hg h hT hr
  have hfin : st.tent t ≠ maxsize := fun e => hc (by rw [edgeDisjointPathCost, if_pos e])
  rw [edgeDisjointPathCost, if_neg hfin, hT.dist]
  have := hd.nonneg t
  omega

/-- If no two edge-disjoint paths exist, the algorithm reports `sys.maxsize`. -/
theorem C81_none (hg : G.WF) (h : IsDijkstra G s dij) {depth : Nat} {T : STree V} {st : SState V} (hok : suurballe G dij depth s = .ok (T, st))
    {t : V} (ht : t ∈ dij.distKeys) (hno : ¬ ∃ c, EdgeDisjointPair G s t c) : edgeDisjointPathCost T st t = maxsize := by
  by_contra hc
  obtain ⟨c, _, h1⟩ := C81_sound hg h hok ht hc
  exact hno ⟨c, h1⟩

/-- The converse is false: a vertex may have two edge-disjoint paths, and the algorithm reports that it has none. -/
theorem C81_misses : ∃ (G : DiGraph Nat) (dij : DijkstraOut Nat) (T : STree Nat) (st : SState Nat), G.WF ∧ G.Asymmetric ∧ IsDijkstra G 0 dij ∧
    suurballe G dij 1000 0 = .ok (T, st) ∧ 5 ∈ dij.distKeys ∧ EdgeDisjointPair G 0 5 13 ∧ edgeDisjointPathCost T st 5 = maxsize := by
  obtain ⟨T, st, h1, _⟩ := suurballe_run missGraph_wf missDij_ok (depth := 1000) (by decide)
  refine ⟨missGraph, missDij, T, st, missGraph_wf, missGraph_asymmetric, missDij_ok, h1, by decide, ?_, ?_⟩
  · exact ⟨[0, 1, 5], [0, 3, 5], ⟨rfl, rfl, by unfold DWalk; decide⟩, ⟨rfl, rfl, by unfold DWalk; decide⟩, by decide, by decide, by decide, by decide⟩
  · have key : (match suurballe missGraph missDij 1000 0 with | .ok (T, st) => edgeDisjointPathCost T st 5 | _ => 0) = maxsize := by decide +kernel
    rw [h1] at key
    exact key

/-- And a reported cost may be too high: two edge-disjoint paths cost less. -/
theorem C81_too_high : ∃ (G : DiGraph Nat) (dij : DijkstraOut Nat) (T : STree Nat) (st : SState Nat), G.WF ∧ G.Asymmetric ∧ IsDijkstra G 0 dij ∧
    suurballe G dij 1000 0 = .ok (T, st) ∧ 4 ∈ dij.distKeys ∧ EdgeDisjointPair G 0 4 13 ∧ edgeDisjointPathCost T st 4 = 18 := by
  obtain ⟨T, st, h1, _⟩ := suurballe_run highGraph_wf highDij_ok (depth := 1000) (by decide)
  refine ⟨highGraph, highDij, T, st, highGraph_wf, highGraph_asymmetric, highDij_ok, h1, by decide, ?_, ?_⟩
  · exact ⟨[0, 1, 4], [0, 3, 4], ⟨rfl, rfl, by unfold DWalk; decide⟩, ⟨rfl, rfl, by unfold DWalk; decide⟩, by decide, by decide, by decide, by decide⟩
  · have key : (match suurballe highGraph highDij 1000 0 with | .ok (T, st) => edgeDisjointPathCost T st 4 | _ => 0) = 18 := by decide +kernel
    rw [h1] at key
    exact key

example : highGraph.WF ∧ IsDijkstra highGraph 0 highDij ∧ 3 ∈ highDij.distKeys ∧
    (match suurballe highGraph highDij 4 0 with | .ok (T, st) => edgeDisjointPathCost T st 3 | _ => 0) = 13 :=
  ⟨highGraph_wf, highDij_ok, by decide, by decide +kernel⟩

/-! ## C82: the extracted paths -/

/-- C82.  The extraction terminates and raises nothing.  For a vertex with a finite reported cost it returns two walks from the source to the
vertex along edges of the graph, which together cost at most the reported cost; an edge that is used more than once is an edge of the
shortest paths. -/
theorem C82_extract (hg : G.WF) (h : IsDijkstra G s dij) {depth : Nat} {T : STree V} {st : SState V} (hok : suurballe G dij depth s = .ok (T, st))
    {t : V} (ht : t ∈ dij.distKeys) (hts : s ≠ t) (hc : edgeDisjointPathCost T st t ≠ maxsize) {fuel : Nat}
    (hf : (dij.distKeys.length + 1) * (dij.distKeys.length + 1) ≤ fuel) :
    ∃ p q, extractPaths T st fuel s t = .ok (p, q) ∧ DWalkFrom G s t p ∧ DWalkFrom G s t q ∧
      walkWeight G.weight p + walkWeight G.weight q ≤ edgeDisjointPathCost T st t ∧
      ∀ e ∈ consec p ++ consec q, 1 < (consec p ++ consec q).count e → dij.path e.2 = dij.path e.1 ++ [e.2] := by
  obtain ⟨hT, hr, hh⟩ := run_of_ok hg h hok
  have hfin : st.tent t ≠ maxsize := fun e => hc (by rw [edgeDisjointPathCost, if_pos e])
  obtain ⟨p, q, h1, h2, h3, h4, h5⟩ := extractPaths_ok hg h hT hr hh ht hts hfin hf
  refine ⟨p, q, h1, h2, h3, by rw [edgeDisjointPathCost, if_neg hfin, hT.dist]; exact h4, ?_⟩
  intro e _ hcount
  by_contra hno
  have := h5 e fun hch => hno hch.path
  omega

/-- The other cases: the source itself, and a vertex that is reported to have no two paths. -/
theorem C82_other (T : STree V) (st : SState V) (fuel : Nat) (s t : V) : extractPaths T st fuel s s = .ok ([s], []) ∧
    (s ≠ t → st.tent t = maxsize → edgeDisjointPathCost T st t = maxsize ∧ extractPaths T st fuel s t = .ok ([], [])) := by
  refine ⟨by rw [extractPaths, if_pos rfl], fun h1 h2 => ⟨by rw [edgeDisjointPathCost, if_pos h2], by rw [extractPaths, if_neg h1, if_pos h2]⟩⟩

/-- The walks need not be edge-disjoint and may cost less than reported: here both use the edge (5, 3), and the cost of a best pair is less
than reported as well. -/
theorem C82_shares_edge : ∃ (G : DiGraph Nat) (dij : DijkstraOut Nat) (T : STree Nat) (st : SState Nat) (p q : List Nat), G.WF ∧ G.Asymmetric ∧
    IsDijkstra G 0 dij ∧ suurballe G dij 1000 0 = .ok (T, st) ∧ extractPaths T st 1000 0 2 = .ok (p, q) ∧ (5, 3) ∈ consec p ∧ (5, 3) ∈ consec q ∧
    edgeDisjointPathCost T st 2 = 9 ∧ EdgeDisjointPair G 0 2 8 := by
  obtain ⟨T, st, h1, _⟩ := suurballe_run shareGraph_wf shareDij_ok (depth := 1000) (by decide)
  have key : (match suurballe shareGraph shareDij 1000 0 with
        | .ok (T, st) => (edgeDisjointPathCost T st 2, (match extractPaths T st 1000 0 2 with | .ok r => some r | _ => none))
        | _ => (0, none)) =
      (9, some ([0, 5, 3, 1, 2], [0, 4, 5, 3, 4, 2])) := by decide +kernel
  rw [h1] at key
  simp only [Prod.mk.injEq] at key
  obtain ⟨k1, k2⟩ := key
  refine ⟨shareGraph, shareDij, T, st, [0, 5, 3, 1, 2], [0, 4, 5, 3, 4, 2], shareGraph_wf, shareGraph_asymmetric, shareDij_ok, h1, ?_, by decide, by decide, k1, ?_⟩
  · split at k2
    · rename_i r hr
      injection k2 with k2
      rw [hr, k2]
    · cases k2
  · exact ⟨[0, 1, 2], [0, 4, 2], ⟨rfl, rfl, by unfold DWalk; decide⟩, ⟨rfl, rfl, by unfold DWalk; decide⟩, by decide, by decide, by decide, by decide⟩

/-- A walk may visit a vertex twice. -/
theorem C82_not_simple : ∃ (G : DiGraph Nat) (dij : DijkstraOut Nat) (T : STree Nat) (st : SState Nat) (p q : List Nat), G.WF ∧ G.Asymmetric ∧
    IsDijkstra G 0 dij ∧ suurballe G dij 1000 0 = .ok (T, st) ∧ extractPaths T st 1000 0 4 = .ok (p, q) ∧ ¬ q.Nodup := by
  obtain ⟨T, st, h1, _⟩ := suurballe_run highGraph_wf highDij_ok (depth := 1000) (by decide)
  have key : (match suurballe highGraph highDij 1000 0 with
        | .ok (T, st) => (match extractPaths T st 1000 0 4 with | .ok r => some r | _ => none)
        | _ => none) = some ([0, 3, 4], [0, 1, 2, 3, 1, 4]) := by decide +kernel
  rw [h1] at key
  simp only at key
  refine ⟨highGraph, highDij, T, st, [0, 3, 4], [0, 1, 2, 3, 1, 4], highGraph_wf, highGraph_asymmetric, highDij_ok, h1, ?_, by decide⟩
  split at key
  · rename_i r hr
    injection key with key
    rw [hr, key]
  · cases key

example : shareGraph.WF ∧ IsDijkstra shareGraph 0 shareDij ∧ 2 ∈ shareDij.distKeys ∧ 0 ≠ 2 ∧
    (match suurballe shareGraph shareDij 5 0 with | .ok (T, st) => edgeDisjointPathCost T st 2 | _ => 0) = 9 :=
  ⟨shareGraph_wf, shareDij_ok, by decide, by decide, by decide +kernel⟩

end Pctsp
