import Verif.Lemmas.Split
import Verif.Spec.DisjointPaths
import Verif.Props.SuurballeExact

/-!
# The maps from vertices to costs and to pairs of paths
-/

set_option linter.unusedSectionVars false

namespace Pctsp

variable {V W : Type} [DecidableEq V] [LinearOrder W]

section Dict

variable {β : Type}

theorem dictSet_new {d : List (V × β)} {k : V} {x : β} (h : k ∉ d.map Prod.fst) : dictSet d k x = d ++ [(k, x)] := by
  rw [dictSet, if_neg]
  simp only [List.any_eq_true, decide_eq_true_eq, not_exists, not_and]
  intro e he e1
  exact h (e1 ▸ List.mem_map_of_mem he)

theorem dictGet_eq_some {d : List (V × β)} (hn : (d.map Prod.fst).Nodup) {k : V} {x : β} : dictGet d k = some x ↔ (k, x) ∈ d := by
  induction d with
  | nil => simp [dictGet]
  | cons e d ih =>
    simp only [List.map_cons, List.nodup_cons] at hn
    rw [dictGet, List.find?_cons]
    by_cases he : e.1 = k
    · simp only [he, decide_true, Option.map_some, Option.some.injEq, List.mem_cons]
      constructor
      · rintro rfl; left; rw [← he]
      · rintro (h | h)
        · rw [← h]
        · exact absurd (he ▸ List.mem_map_of_mem h) hn.1
    · simp only [he, decide_false]
      rw [← dictGet, ih hn.2, List.mem_cons]
      exact (or_iff_right fun h => he (by rw [← h])).symm

theorem dictGet_eq_none {d : List (V × β)} {k : V} : dictGet d k = none ↔ k ∉ d.map Prod.fst := by
  simp only [dictGet, Option.map_eq_none_iff, List.find?_eq_none, decide_eq_true_eq, List.mem_map, not_exists, not_and]

end Dict

section Nodes

theorem addNode_nodup {l : List W} (h : l.Nodup) (v : W) : (addNode l v).Nodup := by
  rw [addNode]; split
  · exact h
  · rename_i hv
    rw [List.nodup_append]
    exact ⟨h, List.nodup_singleton v, fun x hx y hy => by rw [List.mem_singleton] at hy; subst hy; rintro rfl; exact hv hx⟩

theorem mem_addNode {l : List W} {v x : W} : x ∈ addNode l v ↔ x ∈ l ∨ x = v := by
  rw [addNode]; split
  · rename_i hv
    exact ⟨.inl, fun h => h.elim id fun e => e ▸ hv⟩
  · simp

variable {G : DiGraph W} {s : W} {dij : DijkstraOut W}

theorem treeNodes_spec (h : IsDijkstra G s dij) : (treeNodes s dij).Nodup ∧ ∀ x, x ∈ treeNodes s dij ↔ x ∈ dij.distKeys := by
  have h1 : ∀ (keys nodes : List W), nodes.Nodup → (∀ x ∈ nodes, x ∈ dij.distKeys) → (∀ x ∈ keys, x ∈ dij.distKeys) →
      (keys.foldl (addEnds s dij.path) nodes).Nodup ∧ ∀ x ∈ keys.foldl (addEnds s dij.path) nodes, x ∈ dij.distKeys := by
    intro keys
    induction keys with
    | nil => intro nodes h1 h2 _; exact ⟨h1, h2⟩
    | cons k keys ih =>
      intro nodes n1 n2 n3
      rw [List.foldl_cons, addEnds]
      have hk := n3 k (by simp)
      have hrest : ∀ x ∈ keys, x ∈ dij.distKeys := fun x hx => n3 x (by simp [hx])
      by_cases hs : s ≠ k
      · rw [if_pos hs]
        obtain ⟨u, hu, hpath, -⟩ := h.step k hk hs.symm
        have hpar : parentInTree dij.path k = some u := h.parent_eq ⟨hu, hk, hs.symm, hpath⟩
        rw [hpar]
        refine ih _ (addNode_nodup (addNode_nodup n1 _) _) ?_ hrest
        intro x hx
        rw [mem_addNode, mem_addNode] at hx
        rcases hx with (hx | rfl) | rfl
        · exact n2 x hx
        · exact hu
        · exact hk
      · rw [if_neg hs]
        exact ih _ n1 n2 hrest
  have h2 : ∀ (keys nodes : List W), nodes.Nodup → (keys.foldl addNode nodes).Nodup ∧ ∀ x, x ∈ keys.foldl addNode nodes ↔ x ∈ nodes ∨ x ∈ keys := by
    intro keys
    induction keys with
    | nil => intro nodes h; simp [h]
    | cons k keys ih =>
      intro nodes hn
      obtain ⟨a, b⟩ := ih (addNode nodes k) (addNode_nodup hn k)
      refine ⟨a, fun x => ?_⟩
      rw [List.foldl_cons, b, mem_addNode, List.mem_cons]
      tauto
  obtain ⟨a, b⟩ := h1 dij.pathKeys [] List.nodup_nil (by simp) (fun x hx => h.perm.mem_iff.1 hx)
  obtain ⟨c, d⟩ := h2 dij.distKeys _ a
  refine ⟨c, fun x => ?_⟩
  rw [treeNodes, d]
  exact ⟨fun hx => hx.elim (b x) id, .inr⟩

theorem treeNodes_length (h : IsDijkstra G s dij) : (treeNodes s dij).length = dij.distKeys.length := by
  obtain ⟨h1, h2⟩ := treeNodes_spec h
  exact ((List.perm_ext_iff_of_nodup h1 h.nodup).2 h2).length_eq

theorem IsDijkstra.walk_reached (h : IsDijkstra G s dij) {l : List W} : ∀ {u : W}, u ∈ dij.distKeys → DWalk G (u :: l) → ∀ x ∈ u :: l, x ∈ dij.distKeys := by
  induction l with
  | nil => intro u hu _ x hx; rw [List.mem_singleton] at hx; exact hx ▸ hu
  | cons a l ih =>
    intro u hu hw x hx
    have ha := (h.relaxed u hu a (hw (u, a) (by simp))).1
    rcases List.mem_cons.1 hx with rfl | hx
    · exact hu
    · exact ih ha (fun e he => hw e (List.mem_cons_of_mem _ he)) x hx

end Nodes

omit [DecidableEq V] [LinearOrder W] in
theorem ClosesTo.unique {pq : List V × List V} {s t : List V} (h1 : ClosesTo pq s) (h2 : ClosesTo pq t) : s = t := by
  obtain ⟨a, b, c, d, h3, h4, rfl⟩ := h1
  obtain ⟨a', b', c', d', h5, h6, rfl⟩ := h2
  rw [h3] at h5
  rw [h4] at h6
  simp only [List.cons.injEq] at h5 h6
  obtain ⟨rfl, h5⟩ := h5
  obtain ⟨rfl, rfl⟩ := List.append_singleton_inj.1 h5
  obtain ⟨rfl, -⟩ := List.append_singleton_inj.1 h6.2
  rfl

omit [DecidableEq V] [LinearOrder W] in
/-- The pair closes to a tour of the same cost. -/
theorem disjointWalks_round {U : NxGraph V} {cost : V → V → Int} (hU : U.WF) (hc : ∀ u v, v ∈ U.adj u → cost u v = cost v u) {r v : V} (hv : v ≠ r)
    {a b : List V} {c : Int} (h : DisjointWalks U cost r v a b c) :
    ∃ vs, ClosesTo (r :: (a ++ [v]), r :: (b ++ [v])) (r :: (vs ++ [r])) ∧ NxCycle U (r :: vs) ∧ v ∈ vs ∧ walkWeight cost (r :: (vs ++ [r])) = c := by
  obtain ⟨h1, h2, h3⟩ := disjointWalks_cycle hU hc hv h
  exact ⟨a ++ v :: b.reverse, ⟨r, v, a, b, rfl, rfl, by simp⟩, h1, h2, h3⟩

/-- The vertices for which the maps have an entry. -/
def mapped (names : SplitNames V W) (st : SState W) (nodes : List W) : List W := nodes.filter fun w => names.isTail w && st.labeled w

theorem costMap_eq (names : SplitNames V W) (T : STree W) (st : SState W) (nodes : List W) (hn : nodes.Nodup)
    (hinj : ∀ x ∈ nodes, ∀ y ∈ nodes, names.isTail x = true → names.isTail y = true → names.original x = names.original y → x = y) :
    vertexDisjointCostMap names T st nodes = (mapped names st nodes).map fun w => (names.original w, edgeDisjointPathCost T st w) := by
  have key : ∀ (rest done : List W), (done ++ rest).Nodup → (∀ x ∈ done ++ rest, x ∈ nodes) →
      rest.foldl (fun m vertex => if names.isTail vertex && st.labeled vertex then dictSet m (names.original vertex) (edgeDisjointPathCost T st vertex) else m)
        ((mapped names st done).map fun w => (names.original w, edgeDisjointPathCost T st w)) =
      (mapped names st (done ++ rest)).map fun w => (names.original w, edgeDisjointPathCost T st w) := by
    intro rest
    induction rest with
    | nil => intro done _ _; simp
    | cons w rest ih =>
      intro done h1 h2
      rw [List.foldl_cons]
      have e : done ++ w :: rest = (done ++ [w]) ++ rest := by simp
      have := ih (done ++ [w]) (e ▸ h1) (e ▸ h2)
      rw [← e] at this
      rw [← this]
      congr 1
      by_cases hw : (names.isTail w && st.labeled w) = true
      · rw [if_pos hw, dictSet_new]
        · simp [mapped, List.filter_append, hw]
        · simp only [List.map_map, List.mem_map, Function.comp_apply, not_exists, not_and, mapped, List.mem_filter]
          rintro x ⟨hx, hx2⟩ he
          rw [Bool.and_eq_true] at hw hx2
          have := hinj x (h2 x (by simp [hx])) w (h2 w (by simp)) hx2.1 hw.1 he
          subst this
          exact (List.nodup_append.1 h1).2.2 x hx x (by simp) rfl
      · rw [if_neg hw]
        simp [mapped, List.filter_append, hw]
  have := key nodes [] (by simpa using hn) (by simp)
  simpa [vertexDisjointCostMap, mapped] using this

theorem pathsMap_eq (names : SplitNames V W) (T : STree W) (st : SState W) (fuel : Nat) (P : W → List W × List W) (nodes : List W) (hn : nodes.Nodup)
    (hinj : ∀ x ∈ nodes, ∀ y ∈ nodes, names.isTail x = true → names.isTail y = true → names.original x = names.original y → x = y)
    (hP : ∀ x ∈ mapped names st nodes, extractPaths T st fuel T.source x = .ok (P x)) :
    pathsMapLoop names T st fuel nodes [] = .ok ((mapped names st nodes).map fun w => (names.original w, (names.path (P w).1, names.path (P w).2))) := by
  have key : ∀ (rest done : List W), (done ++ rest).Nodup → (∀ x ∈ done ++ rest, x ∈ nodes) →
      pathsMapLoop names T st fuel rest ((mapped names st done).map fun w => (names.original w, (names.path (P w).1, names.path (P w).2))) =
      .ok ((mapped names st (done ++ rest)).map fun w => (names.original w, (names.path (P w).1, names.path (P w).2))) := by
    intro rest
    induction rest with
    | nil => intro done _ _; simp [pathsMapLoop]
    | cons w rest ih =>
      intro done h1 h2
      have e : done ++ w :: rest = (done ++ [w]) ++ rest := by simp
      have := ih (done ++ [w]) (e ▸ h1) (e ▸ h2)
      rw [← e] at this
      rw [← this, pathsMapLoop]
      by_cases hw : (names.isTail w && st.labeled w) = true
      · rw [if_pos hw, hP w (by simp only [mapped, List.mem_filter]; exact ⟨h2 w (by simp), hw⟩), Res.ok_bind]
        show pathsMapLoop names T st fuel rest (dictSet _ _ (names.path (P w).1, names.path (P w).2)) = _
        rw [dictSet_new]
        · simp [mapped, List.filter_append, hw]
        · simp only [List.map_map, List.mem_map, Function.comp_apply, not_exists, not_and, mapped, List.mem_filter]
          rintro x ⟨hx, hx2⟩ he
          rw [Bool.and_eq_true] at hw hx2
          have := hinj x (h2 x (by simp [hx])) w (h2 w (by simp)) hx2.1 hw.1 he
          subst this
          exact (List.nodup_append.1 h1).2.2 x hx x (by simp) rfl
      · rw [if_neg hw]
        simp [mapped, List.filter_append, hw]
  have := key nodes [] (by simpa using hn) (by simp)
  simpa [mapped] using this

namespace SuurballeOn

variable {U : NxGraph V} {cost : V → V → Int} {A : DiGraph W} {tail head : V → W} {names : SplitNames V W} {r : V}
  {dij : DijkstraOut W} {depth : Nat} {T : STree W} {st : SState W}

/-- A reached vertex is a tail or a head. -/
theorem half (h : SuurballeOn U cost A tail head names r dij depth T st) {x : W} (hx : x ∈ dij.distKeys) : ∃ v, x = tail v ∨ x = head v := by
  by_cases hs : x = head r
  · exact ⟨r, .inr hs⟩
  · obtain ⟨u, -, -, he, -⟩ := h.dijkstra.step x hx hs
    rcases h.split.edges _ _ he with ⟨v, -, h2⟩ | ⟨a, b, -, h2, -⟩
    · exact ⟨v, .inr h2⟩
    · exact ⟨b, .inl h2⟩

theorem tail_of (h : SuurballeOn U cost A tail head names r dij depth T st) {x : W} (hx : x ∈ dij.distKeys) (ht : names.isTail x = true) :
    x = tail (names.original x) := by
  obtain ⟨v, rfl | rfl⟩ := h.half hx
  · rw [h.names.original]
  · rw [h.names.headFalse] at ht; simp at ht

theorem inj (h : SuurballeOn U cost A tail head names r dij depth T st) : ∀ x ∈ treeNodes (head r) dij, ∀ y ∈ treeNodes (head r) dij,
    names.isTail x = true → names.isTail y = true → names.original x = names.original y → x = y := by
  intro x hx y hy tx ty e
  rw [(treeNodes_spec h.dijkstra).2] at hx hy
  rw [h.tail_of hx tx, h.tail_of hy ty, e]

theorem mem_mapped (h : SuurballeOn U cost A tail head names r dij depth T st) {x : W} :
    x ∈ mapped names st (treeNodes (head r) dij) ↔ ∃ v, x = tail v ∧ tail v ∈ dij.distKeys ∧ st.tent (tail v) ≠ maxsize := by
  rw [mapped, List.mem_filter, (treeNodes_spec h.dijkstra).2, Bool.and_eq_true]
  constructor
  · rintro ⟨h1, h2, h3⟩
    have e := h.tail_of h1 h2
    exact ⟨_, e, e ▸ h1, by rw [← e]; exact (C83_labeled h.wf h.dijkstra h.run h1).1 h3⟩
  · rintro ⟨v, rfl, h1, h2⟩
    exact ⟨h1, h.names.tailTrue v, (C83_labeled h.wf h.dijkstra h.run h1).2 h2⟩

theorem costMap (h : SuurballeOn U cost A tail head names r dij depth T st) : vertexDisjointCostMap names T st (treeNodes (head r) dij) =
    (mapped names st (treeNodes (head r) dij)).map fun w => (names.original w, edgeDisjointPathCost T st w) :=
  costMap_eq names T st _ (treeNodes_spec h.dijkstra).1 h.inj

theorem keys_nodup (h : SuurballeOn U cost A tail head names r dij depth T st) :
    ((mapped names st (treeNodes (head r) dij)).map names.original).Nodup := by
  refine List.Nodup.map_on ?_ ((treeNodes_spec h.dijkstra).1.filter _)
  intro x hx y hy e
  obtain ⟨u, rfl, -⟩ := h.mem_mapped.1 hx
  obtain ⟨v, rfl, -⟩ := h.mem_mapped.1 hy
  rw [h.names.original, h.names.original] at e
  rw [e]

theorem costMap_nodup (h : SuurballeOn U cost A tail head names r dij depth T st) :
    ((vertexDisjointCostMap names T st (treeNodes (head r) dij)).map Prod.fst).Nodup := by
  rw [h.costMap, List.map_map]; exact h.keys_nodup

theorem get_cost (h : SuurballeOn U cost A tail head names r dij depth T st) {v : V} {c : Int} :
    dictGet (vertexDisjointCostMap names T st (treeNodes (head r) dij)) v = some c ↔
      tail v ∈ dij.distKeys ∧ st.tent (tail v) ≠ maxsize ∧ c = edgeDisjointPathCost T st (tail v) := by
  rw [dictGet_eq_some h.costMap_nodup, h.costMap, List.mem_map]
  constructor
  · rintro ⟨w, hw, e⟩
    obtain ⟨u, rfl, h1, h2⟩ := h.mem_mapped.1 hw
    rw [h.names.original, Prod.mk.injEq] at e
    obtain ⟨rfl, rfl⟩ := e
    exact ⟨h1, h2, rfl⟩
  · rintro ⟨h1, h2, rfl⟩
    exact ⟨tail v, h.mem_mapped.2 ⟨v, rfl, h1, h2⟩, by rw [h.names.original]⟩

/-- An entry is the least cost of two paths without a common edge to the tail of the vertex. -/
theorem entry (h : SuurballeOn U cost A tail head names r dij depth T st) {v : V} {c : Int}
    (hc : dictGet (vertexDisjointCostMap names T st (treeNodes (head r) dij)) v = some c) :
    (∃ a b, DisjointWalks U cost r v a b c) ∧ ∀ c', (∃ a b, DisjointWalks U cost r v a b c') → c ≤ c' := by
  obtain ⟨h1, h2, rfl⟩ := h.get_cost.1 hc
  obtain ⟨h3, h4⟩ := exact_of_tent h.wf (h.split.splitLike _) h.dijkstra h.run h1 h2
  have hU : ∀ u v, v ∈ U.adj u → v ∈ U.nodes := fun u v he => (h.und.closed u v he).2
  exact ⟨(h.split.pair_iff hU).1 h3, fun c' hc' => h4 c' ((h.split.pair_iff hU).2 hc')⟩

/-- Without an entry there are no two such paths of a cost below `sys.maxsize`. -/
theorem no_entry (h : SuurballeOn U cost A tail head names r dij depth T st) {v : V}
    (hc : dictGet (vertexDisjointCostMap names T st (treeNodes (head r) dij)) v = none) {c : Int} (hp : ∃ a b, DisjointWalks U cost r v a b c) :
    maxsize ≤ c := by
  have hU : ∀ u v, v ∈ U.adj u → v ∈ U.nodes := fun u v he => (h.und.closed u v he).2
  have hp := (h.split.pair_iff hU).2 hp
  have hmem : tail v ∈ dij.distKeys := by
    obtain ⟨p, -, hp, -⟩ := hp
    cases p with
    | nil => have := hp.head; simp at this
    | cons x p =>
      have hx : x = head r := by have := hp.head; simpa using this
      subst hx
      exact h.dijkstra.walk_reached h.dijkstra.source hp.walk _ (List.mem_of_getLast? hp.last)
  by_cases hfin : st.tent (tail v) = maxsize
  · exact C83_none h.wf (h.split.splitLike _) h.dijkstra h.run hmem (by rw [edgeDisjointPathCost, if_pos hfin]) c hp
  · rw [h.get_cost.2 ⟨hmem, hfin, rfl⟩] at hc
    simp at hc

/-- The map of the paths: the same keys in the same order, and every entry is a pair of walks as above of the cost of the other map, unless it uses a
self-loop of the root. -/
theorem pathsMap (h : SuurballeOn U cost A tail head names r dij depth T st) :
    ∃ m, undirectedVertexDisjointPathsMap names T st (treeNodes (head r) dij) = .ok m ∧
      m.map Prod.fst = (vertexDisjointCostMap names T st (treeNodes (head r) dij)).map Prod.fst ∧
      ∀ v pq, (v, pq) ∈ m → (v = r → r ∉ U.adj r) → ∃ c a b, dictGet (vertexDisjointCostMap names T st (treeNodes (head r) dij)) v = some c ∧
        DisjointWalks U cost r v a b c ∧ pq = (r :: (a ++ [v]), r :: (b ++ [v])) := by
  have hU : ∀ u v, v ∈ U.adj u → v ∈ U.nodes := fun u v he => (h.und.closed u v he).2
  obtain ⟨hT, -, -⟩ := run_of_ok h.wf h.dijkstra h.run
  have hex : ∀ x ∈ mapped names st (treeNodes (head r) dij), ∃ pq : List W × List W,
      extractPaths T st (((treeNodes (head r) dij).length + 1) * ((treeNodes (head r) dij).length + 1)) T.source x = .ok pq ∧
      DWalkFrom A (head r) x pq.1 ∧ DWalkFrom A (head r) x pq.2 ∧ (consec pq.1 ++ consec pq.2).Nodup ∧ pq.1.Nodup ∧ pq.2.Nodup ∧
      walkWeight A.weight pq.1 + walkWeight A.weight pq.2 = edgeDisjointPathCost T st x := by
    intro x hx
    obtain ⟨v, rfl, h1, h2⟩ := h.mem_mapped.1 hx
    obtain ⟨p, q, k1, k2, k3, k4, k5, k6, -, k7, -⟩ := simple_of_tent h.wf (h.split.splitLike _) (h.split.narrow _) h.dijkstra h.run h1
      (h.split.disj v r).symm h2 (fuel := ((treeNodes (head r) dij).length + 1) * ((treeNodes (head r) dij).length + 1))
      (by rw [treeNodes_length h.dijkstra])
    exact ⟨(p, q), by rw [hT.source]; exact k1, k2, k3, k4, k5, k6, k7⟩
  choose! P hP using hex
  refine ⟨_, pathsMap_eq names T st _ P _ (treeNodes_spec h.dijkstra).1 h.inj fun x hx => (hP x hx).1, ?_, ?_⟩
  · rw [h.costMap, List.map_map, List.map_map]; rfl
  · intro v pq hm hloop
    rw [List.mem_map] at hm
    obtain ⟨w, hw, e⟩ := hm
    obtain ⟨u, rfl, h1, h2⟩ := h.mem_mapped.1 hw
    rw [h.names.original, Prod.mk.injEq] at e
    obtain ⟨rfl, rfl⟩ := e
    obtain ⟨-, k2, k3, k4, k5, k6, k7⟩ := hP _ hw
    obtain ⟨l, hl, e1, wl, ll⟩ := h.split.walk_of_path _ _ r u le_rfl k2
    obtain ⟨m, hm, e2, wm, lm⟩ := h.split.walk_of_path _ _ r u le_rfl k3
    obtain ⟨a, rfl⟩ : ∃ a, l = a ++ [u] := ⟨l.dropLast, (List.dropLast_append_getLast? u (by simpa using ll)).symm⟩
    obtain ⟨b, rfl⟩ : ∃ b, m = b ++ [u] := ⟨m.dropLast, (List.dropLast_append_getLast? u (by simpa using lm)).symm⟩
    rw [e1] at k5; rw [e2] at k6; rw [e1, e2] at k4 k7
    have hw := h.split.disjointWalks hU k5 k6 k4 wl wm
    rw [k7] at hw
    have hpath : ∀ l, (head r :: expand tail head (l ++ [u])).Nodup → NxWalk U (r :: (l ++ [u])) →
        names.path (head r :: expand tail head (l ++ [u])) = r :: (l ++ [u]) := by
      intro l hn hwalk
      refine h.names.path r (l ++ [u]) (by simp) fun e he => ?_
      rw [h.split.nodup_expand _ _ (by simp), List.dropLast_concat] at hn
      by_cases hur : u = r
      · subst hur
        intro hee
        obtain ⟨B, C, hBC⟩ := mem_consec_iff_split.1 (show (e.1, e.2) ∈ _ from he)
        rw [← hee] at hBC
        have hin := hwalk e he
        rw [← hee] at hin
        -- a repeated vertex can only be the root
        cases B with
        | nil =>
          simp only [List.nil_append, List.cons.injEq] at hBC
          rw [← hBC.1] at hin
          exact hloop rfl hin
        | cons y B =>
          simp only [List.cons_append, List.cons.injEq] at hBC
          have := hn.1
          rw [hBC.2] at this
          exact (List.nodup_cons.1 (List.nodup_append.1 this).2.1).1 (by simp)
      · have hnd : (r :: (l ++ [u])).Nodup := by
          have := hn.2
          rw [List.nodup_cons] at this ⊢
          exact ⟨by simp only [List.mem_append, List.mem_singleton, not_or]; exact ⟨this.1, fun e => hur e.symm⟩, hn.1⟩
        obtain ⟨B, C, hBC⟩ := mem_consec_iff_split.1 (show (e.1, e.2) ∈ _ from he)
        intro hee
        rw [hBC, hee] at hnd
        exact (List.nodup_cons.1 (List.nodup_append.1 hnd).2.1).1 (by simp)
    refine ⟨_, a, b, h.get_cost.2 ⟨h1, h2, rfl⟩, hw, ?_⟩
    rw [e1, e2, hpath a k5 wl, hpath b k6 wm]

end SuurballeOn

end Pctsp
