import Verif.Lemmas.Cut
import Verif.Lemmas.Walk
import Verif.Lemmas.SimpleCycle
import Mathlib.Algebra.Group.Nat.Even

/-!
# Property theorems: the edges of a cut, and edges as pairs of vertices (C149)
-/

namespace Pctsp

/-- **C149.** With a side for every vertex: exactly the edges whose ends are on different sides, each once, in the order of the graph. -/
theorem C149_cut {α : Type} [DecidableEq α] (g : Graph) (hg : g.WF) (side : List α) (hs : g.n ≤ side.length) :
    ∃ cut, getEdgesFromCut g side = .ok cut ∧ cut.Pairwise (· < ·) ∧
      ∀ e, e ∈ cut ↔ ∃ u v, g.edges[e]? = some (u, v) ∧ side[u]? ≠ side[v]? := by
  obtain ⟨r, h1, h2, h3⟩ := edgesFromCutLoop_ok (parity := side) (es := g.edges) (i := 0)
    fun e he => by have := hg e he; omega
  refine ⟨r, h1, h2, fun e => (h3 e).trans ?_⟩
  constructor
  · rintro ⟨j, u, v, rfl, h, hp⟩; exact ⟨u, v, by simpa using h, hp⟩
  · rintro ⟨u, v, h, hp⟩; exact ⟨e, u, v, by simp, h, hp⟩

example := C149_cut { n := 4, edges := [(0, 1), (1, 2), (2, 2), (3, 0), (1, 0)] } (by decide) [true, false, false, true] (by decide)
example : getEdgesFromCut { n := 4, edges := [(0, 1), (1, 2), (2, 2), (3, 0), (1, 0)] } [true, false, false, true] = .ok [0, 4] := by decide +kernel

/-- **C149.** An edge with an end that has no side makes the call undefined; nothing else does. -/
theorem C149_short {α : Type} [DecidableEq α] (g : Graph) (side : List α) :
    (∃ w, getEdgesFromCut g side = .ub w) ↔ ∃ e ∈ g.edges, side.length ≤ e.1 ∨ side.length ≤ e.2 := by
  refine ⟨fun ⟨w, hw⟩ => ?_, fun h => edgesFromCutLoop_short h⟩
  by_contra hn
  obtain ⟨r, h1, -⟩ := edgesFromCutLoop_ok (parity := side) (es := g.edges) (i := 0)
    fun e he => by
      constructor <;> by_contra hl
      · exact hn ⟨e, he, Or.inl (by omega)⟩
      · exact hn ⟨e, he, Or.inr (by omega)⟩
  rw [getEdgesFromCut, h1] at hw
  cases hw

example : ∃ w, getEdgesFromCut { n := 3, edges := [(0, 1), (2, 1)] } [true, false] = .ub w := (C149_short _ _).2 ⟨(2, 1), by decide, by decide⟩

/-- **C149.** Exchanging the two sides does not change the cut. -/
theorem C149_swap (g : Graph) (side : List Bool) : getEdgesFromCut g (side.map (!·)) = getEdgesFromCut g side := by
  have hside : ∀ v, sideOf (side.map (!·)) v = (match sideOf side v with | .ok b => .ok (!b) | .throw e => .throw e | .ub w => .ub w) := by
    intro v
    unfold sideOf
    rw [List.getElem?_map]
    cases side[v]? <;> rfl
  have key : ∀ (es : List (Nat × Nat)) (i : Nat), edgesFromCutLoop (side.map (!·)) i es = edgesFromCutLoop side i es := by
    intro es
    induction es with
    | nil => intro i; rfl
    | cons e es ih =>
      intro i
      rw [edgesFromCutLoop, edgesFromCutLoop, hside, hside, ih]
      cases h1 : sideOf side e.1 with
      | ok a =>
        cases h2 : sideOf side e.2 with
        | ok b => cases a <;> cases b <;> simp [Res.ok_bind]
        | throw x => rfl
        | ub w => rfl
      | throw x => rfl
      | ub w => rfl
  exact key _ _

example : getEdgesFromCut { n := 3, edges := [(0, 1), (2, 1), (0, 2)] } [false, true, true] = .ok [0, 2] := by decide +kernel

/-- **C149.** A walk crosses the cut an even number of times iff it ends on the side where it starts; so a walk between the two sides uses an edge of
the cut. -/
theorem C149_walk (g : Graph) (hg : g.WF) (side : List Bool) (hs : g.n ≤ side.length) {walk es cut : List Nat}
    (hw : getEdgesInWalk g walk = .ok es) (hc : getEdgesFromCut g side = .ok cut) {u v : Nat} (hu : walk.head? = some u)
    (hv : walk.getLast? = some v) :
    (Even (es.countP (· ∈ cut)) ↔ side[u]? = side[v]?) ∧ (es.countP (· ∈ cut) = 0 ↔ ∀ a ∈ walk, side[a]? = side[u]?) := by
  obtain ⟨r, h1, -, h3⟩ := C149_cut g hg side hs
  rw [h1] at hc; cases hc
  suffices h : (v < g.n ∨ walk = [v]) ∧ (Even (es.countP (· ∈ cut)) ↔ side[u]? = side[v]?) ∧
      (es.countP (· ∈ cut) = 0 ↔ ∀ a ∈ walk, side[a]? = side[u]?) from h.2
  induction walk generalizing u es with
  | nil => simp at hu
  | cons a walk ih =>
    simp only [List.head?_cons, Option.some.injEq] at hu
    subst hu
    cases walk with
    | nil =>
      simp only [List.getLast?_singleton, Option.some.injEq] at hv
      subst hv
      rw [getEdgesInWalk] at hw; cases hw
      simp
    | cons b rest =>
      rw [getEdgesInWalk] at hw
      obtain ⟨o, ho, hw⟩ := Res.bind_eq_ok.1 hw
      cases o with
      | none => cases hw
      | some e =>
        obtain ⟨es', he', hw⟩ := Res.bind_eq_ok.1 hw
        cases hw
        have hidx : g.edgeIdx a b = some e := by
          unfold Graph.edge at ho
          split at ho
          · exact Res.ok.inj ho
          · cases ho
        obtain ⟨i0, i1, i2⟩ := ih he' rfl (by simpa using hv)
        have hadj := edgeIdx_eq_some hidx
        obtain ⟨ha, hb⟩ : a < g.n ∧ b < g.n := by
          rcases hadj with h | h
          · exact hg _ (List.mem_of_getElem? h)
          · exact (hg _ (List.mem_of_getElem? h)).symm
        have hvn : v < g.n := by
          rcases i0 with h | h
          · exact h
          · have : b = v := by injection h
            omega
        refine ⟨Or.inl hvn, ?_⟩
        have hmem : e ∈ cut ↔ side[a]? ≠ side[b]? := by
          rw [h3]
          constructor
          · rintro ⟨x, y, h, hne⟩
            rcases hadj with h' | h' <;> rw [h'] at h <;> cases h
            · exact hne
            · exact hne.symm
          · intro hne
            rcases hadj with h' | h'
            · exact ⟨a, b, h', hne⟩
            · exact ⟨b, a, h', hne.symm⟩
        obtain ⟨sa, hsa⟩ : ∃ s, side[a]? = some s := ⟨_, List.getElem?_eq_getElem (by omega)⟩
        obtain ⟨sb, hsb⟩ : ∃ s, side[b]? = some s := ⟨_, List.getElem?_eq_getElem (by omega)⟩
        obtain ⟨sv, hsv⟩ : ∃ s, side[v]? = some s := ⟨_, List.getElem?_eq_getElem (by omega)⟩
        by_cases he : e ∈ cut
        · have hne := hmem.1 he
          rw [List.countP_cons_of_pos (by simpa using he)]
          constructor
          · rw [Nat.even_add_one, i1, hsa, hsb, hsv]
            rw [hsa, hsb] at hne
            revert hne
            cases sa <;> cases sb <;> cases sv <;> simp
          · constructor
            · intro h; omega
            · intro h; exact absurd (h b (by simp)).symm hne
        · have heq : side[a]? = side[b]? := by
            by_contra hne
            exact he (hmem.2 hne)
          rw [List.countP_cons_of_neg (by simpa using he), i1, i2, heq]
          refine ⟨Iff.rfl, ?_⟩
          rw [List.forall_mem_cons (a := a)]
          exact (and_iff_right heq).symm

example := C149_walk { n := 4, edges := [(0, 1), (1, 2), (2, 2), (3, 0), (1, 0)] } (by decide) [true, false, false, true] (by decide)
  (walk := [3, 0, 1, 2, 2, 1]) (es := [3, 0, 1, 2, 1]) (cut := [0, 4]) (by decide +kernel) (by decide +kernel) (u := 3) (v := 1) rfl rfl

/-- **C149.** A tour crosses the cut an even number of times, and at least twice if it has vertices on both sides. -/
theorem C149_tour (g : Graph) (hg : g.WF) (side : List Bool) (hs : g.n ≤ side.length) {r : Nat} {t es cut : List Nat} (ht : IsTour g r t)
    (he : getEdgesInWalk g t = .ok es) (hc : getEdgesFromCut g side = .ok cut) :
    Even (es.countP (· ∈ cut)) ∧ (∀ a ∈ t, ∀ b ∈ t, side[a]? ≠ side[b]? → 2 ≤ es.countP (· ∈ cut)) := by
  obtain ⟨m, rfl⟩ := ht.shape
  obtain ⟨h1, h2⟩ := C149_walk g hg side hs he hc (u := r) (v := r) rfl (by rw [← List.cons_append, List.getLast?_concat])
  have heven := h1.2 rfl
  refine ⟨heven, fun a ha b hb hne => ?_⟩
  by_contra hlt
  have hz : es.countP (· ∈ cut) = 0 := by
    obtain ⟨k, hk⟩ := heven
    omega
  have := h2.1 hz
  exact hne ((this a ha).trans (this b hb).symm)

example := C149_tour { n := 4, edges := [(0, 1), (1, 2), (2, 3), (3, 0), (1, 3)] } (by decide) [true, false, true, false] (by decide)
  (r := 0) (t := [0, 1, 2, 3, 0]) (es := [0, 1, 2, 3]) (cut := [0, 1, 2, 3]) ⟨⟨[1, 2, 3], rfl⟩, by decide, by decide⟩ (by decide +kernel) (by decide +kernel)

/-- **C149.** The cut is empty iff no walk leads from one side to the other. -/
theorem C149_empty (g : Graph) (hg : g.WF) (side : List Bool) (hs : g.n ≤ side.length) :
    getEdgesFromCut g side = .ok [] ↔
      ∀ walk u v, IsWalk g walk → walk.head? = some u → walk.getLast? = some v → side[u]? = side[v]? := by
  constructor
  · intro hc walk u v hw hu hv
    obtain ⟨es, he, -⟩ := getEdgesInWalk_of_isWalk hg hw
    exact (C149_walk g hg side hs he hc hu hv).1.1 (by simp)
  · intro h
    obtain ⟨r, h1, -, h3⟩ := C149_cut g hg side hs
    rw [h1]
    congr 1
    refine List.eq_nil_iff_forall_not_mem.2 fun e he => ?_
    obtain ⟨u, v, huv, hne⟩ := (h3 e).1 he
    exact hne (h [u, v] u v (by intro p hp; simp [consec] at hp; subst hp; exact Or.inl (List.mem_of_getElem? huv)) rfl rfl)

example : getEdgesFromCut { n := 6, edges := [(0, 1), (1, 2), (2, 0), (3, 4), (4, 5), (3, 5)] } [true, true, true, false, false, false] = .ok [] := by
  decide +kernel

/-- **C149.** The pairs of vertices of all edges are the edges in order.  Looking the pairs up again gives an edge for each of them, and it gives back
the edges they come from iff no two edges join the same vertices. -/
theorem C149_pairs (g : Graph) (hg : g.WF) :
    ∃ ps es, getVertexPairVectorFromGraph g = .ok ps ∧ (∀ e : Nat, ps[e]? = g.edges[e]?) ∧
      edgesFromVertexPairs g ps = .ok es ∧ es.length = g.edges.length ∧ (∀ e f : Nat, es[e]? = some f → f ≤ e) ∧
      ((∀ e f : Nat, es[e]? = some f → f = e) ↔ (g.edges.map und).Nodup) := by
  have hidx : ∀ i (h : i < g.edges.length), ∃ j, j ≤ i ∧ g.edgeIdx g.edges[i].1 g.edges[i].2 = some j ∧
      ∀ k (hk : k < g.edges.length), k < j → und g.edges[k] ≠ und g.edges[i] := by
    intro i h
    obtain ⟨j, hj⟩ := Option.isSome_iff_exists.1 (edgeIdx_isSome_iff.2 (Or.inl (List.getElem_mem h) : Adj g g.edges[i].1 g.edges[i].2))
    have hj' := hj
    rw [Graph.edgeIdx, List.findIdx?_eq_some_iff_getElem] at hj'
    obtain ⟨hjl, -, h2⟩ := hj'
    refine ⟨j, ?_, hj, fun k hk hkj => ?_⟩
    · by_contra hlt
      have := h2 i (by omega)
      rw [joins_iff] at this
      simp at this
    · have := h2 k hkj
      rw [joins_iff] at this
      intro hu
      refine this ?_
      have hu := (und_eq_iff (a := g.edges[k].1) (b := g.edges[k].2) (c := g.edges[i].1) (d := g.edges[i].2)).1 hu
      rcases hu with ⟨h1, h2⟩ | ⟨h1, h2⟩
      · exact Or.inl (Prod.ext h1 h2)
      · exact Or.inr (Prod.ext h1 h2)
  choose! J hJ1 hJ2 hJ3 using hidx
  have hes : edgesFromVertexPairs g g.edges = .ok ((List.range g.edges.length).map J) := by
    refine edgesFromVertexPairs_ok.2 (List.forall₂_iff_get.2 ⟨by simp, fun i h1 h2 => ?_⟩)
    simp only [List.get_eq_getElem, List.getElem_map, List.getElem_range]
    exact ⟨(hg _ (List.getElem_mem h1)).1, hJ2 i h1⟩
  have hget : ∀ e f : Nat, ((List.range g.edges.length).map J)[e]? = some f ↔ e < g.edges.length ∧ J e = f := by
    intro e f
    rw [List.getElem?_map]
    rcases Nat.lt_or_ge e g.edges.length with h | h
    · simp [h]
    · simp [h]
  refine ⟨g.edges, _, getVertexPairVectorFromGraph_eq g, fun _ => rfl, hes, by simp, ?_, ?_⟩
  · intro e f h
    obtain ⟨h1, rfl⟩ := (hget e f).1 h
    exact hJ1 e h1
  · have hjoin : ∀ i (h : i < g.edges.length), ∃ h' : J i < g.edges.length, und g.edges[J i] = und g.edges[i] := by
      intro i h
      have := edgeIdx_eq_some (hJ2 i h)
      have hl : J i < g.edges.length := lt_of_le_of_lt (hJ1 i h) h
      refine ⟨hl, ?_⟩
      rw [List.getElem?_eq_getElem hl, Option.some.injEq, Option.some.injEq] at this
      exact und_eq_iff.2 (by rcases this with h | h <;> simp [h])
    constructor
    · intro h
      refine List.pairwise_iff_getElem.2 fun i j hi hj hij => ?_
      simp only [List.length_map] at hi hj
      simp only [List.getElem_map]
      have := h j (J j) ((hget j _).2 ⟨hj, rfl⟩)
      exact hJ3 j hj i hi (by omega)
    · intro hnd e f h
      obtain ⟨h1, rfl⟩ := (hget e f).1 h
      obtain ⟨h2, h3⟩ := hjoin e h1
      have := (List.nodup_iff_injective_get.1 hnd) (a₁ := ⟨J e, by simpa using h2⟩) (a₂ := ⟨e, by simpa using h1⟩) (by simpa using h3)
      simpa using this

example := C149_pairs { n := 4, edges := [(0, 1), (1, 2), (1, 0), (3, 3)] } (by decide)
example : edgesFromVertexPairs { n := 4, edges := [(0, 1), (1, 2), (1, 0), (3, 3)] } [(0, 1), (1, 2), (1, 0), (3, 3)] = .ok [0, 1, 0, 3] := by
  decide +kernel

/-- **C149.** Building a graph from the pairs gives the same edges in the same order.  The vertices are the same iff the last vertex has an edge
(or there are no vertices at all). -/
theorem C149_rebuild (g : Graph) (hg : g.WF) :
    ∃ ps, getVertexPairVectorFromGraph g = .ok ps ∧ (({ n := 0, edges := [] } : Graph).addEdges ps).edges = g.edges ∧
      (({ n := 0, edges := [] } : Graph).addEdges ps).n ≤ g.n ∧
      ((({ n := 0, edges := [] } : Graph).addEdges ps).n = g.n ↔ g.n = 0 ∨ ∃ v, Adj g (g.n - 1) v) := by
  refine ⟨g.edges, getVertexPairVectorFromGraph_eq g, ?_⟩
  have hedges : ∀ (l : List (Nat × Nat)) (h : Graph), (h.addEdges l).edges = h.edges ++ l := by
    intro l
    induction l with
    | nil => intro h; simp [Graph.addEdges]
    | cons e l ih => intro h; rw [Graph.addEdges, List.foldl_cons]; have := ih (h.addEdge e.1 e.2); rw [Graph.addEdges] at this; rw [this]; simp [Graph.addEdge]
  have hn : ∀ (l : List (Nat × Nat)) (h : Graph) (k : Nat), (h.addEdges l).n ≤ k ↔ h.n ≤ k ∧ ∀ e ∈ l, e.1 < k ∧ e.2 < k := by
    intro l
    induction l with
    | nil => intro h k; simp [Graph.addEdges]
    | cons e l ih =>
      intro h k
      have := ih (h.addEdge e.1 e.2) k
      rw [Graph.addEdges] at this
      rw [Graph.addEdges, List.foldl_cons, this, List.forall_mem_cons, ← and_assoc]
      refine and_congr_left fun _ => ?_
      simp only [Graph.addEdge]
      omega
  refine ⟨by rw [hedges]; simp, (hn _ _ _).2 ⟨by simp, hg⟩, ?_⟩
  constructor
  · intro h
    by_contra hno
    rw [not_or] at hno
    have : (({ n := 0, edges := [] } : Graph).addEdges g.edges).n ≤ g.n - 1 := by
      refine (hn _ _ _).2 ⟨by simp, fun e he => ?_⟩
      have := hg e he
      refine ⟨?_, ?_⟩ <;> by_contra hlt
      · exact hno.2 ⟨e.2, Or.inl (by rw [show g.n - 1 = e.1 by omega]; exact he)⟩
      · exact hno.2 ⟨e.1, Or.inr (by rw [show g.n - 1 = e.2 by omega]; exact he)⟩
    omega
  · intro h
    refine le_antisymm ((hn _ _ _).2 ⟨by simp, hg⟩) ?_
    rcases h with h | ⟨v, h⟩
    · omega
    · by_contra hlt
      have h2 := ((hn g.edges { n := 0, edges := [] } (g.n - 1)).1 (by omega)).2
      rcases h with h | h
      · have := (h2 _ h).1; simp at this
      · have := (h2 _ h).2; simp at this

example := C149_rebuild { n := 4, edges := [(0, 1), (1, 2), (1, 0), (2, 0)] } (by decide)
example : (({ n := 0, edges := [] } : Graph).addEdges [(0, 1), (1, 2), (1, 0), (2, 0)]).n = 3 := by decide

end Pctsp
