import Verif.Lemmas.NamedIn
import Verif.Lemmas.Renaming
import Verif.Lemmas.SplitExamples
import Verif.Props.CostCover

/-!
# C86: cost cover rows from the map of the disjoint paths, and the entry of the root
-/

set_option linter.unusedSectionVars false

namespace Pctsp

variable {V W : Type} [DecidableEq V] [LinearOrder W] {U : NxGraph V} {cost : V → V → Int} {A : DiGraph W} {tail head : V → W}
  {names : SplitNames V W} {r : V} {dij : DijkstraOut W} {depth : Nat} {T : STree W} {st : SState W}

/-- **C86.** In a graph without self-loops the entry of the root is the least cost of two closed walks from the root that have nothing else in common,
so it is at most twice the cost of any two edges at the root; a root with two neighbours that are joined cheaply enough has an entry. -/
theorem C86_root_entry (h : SuurballeOn U cost A tail head names r dij depth T st) (hl : ∀ u, u ∉ U.adj u) :
    (∀ c, dictGet (vertexDisjointCostMap names T st (treeNodes (head r) dij)) r = some c →
      TwoLoops U cost r c ∧ (∀ c', TwoLoops U cost r c' → c ≤ c') ∧
        ∀ a b, a ≠ b → a ∈ U.adj r → b ∈ U.adj r → c ≤ 2 * (cost r a + cost r b)) ∧
    (dictGet (vertexDisjointCostMap names T st (treeNodes (head r) dij)) r = none →
      ∀ a b, a ≠ b → a ∈ U.adj r → b ∈ U.adj r → maxsize ≤ 2 * (cost r a + cost r b)) := by
  have edge : ∀ a b, a ≠ b → a ∈ U.adj r → b ∈ U.adj r → TwoLoops U cost r (2 * (cost r a + cost r b)) := by
    intro a b hab ha hb
    have hra : r ≠ a := by rintro rfl; exact hl _ ha
    have hrb : r ≠ b := by rintro rfl; exact hl _ hb
    have hcon : ∀ x, consec (r :: ([x] ++ [r])) = [(r, x), (x, r)] := fun _ => rfl
    have hw : ∀ x ∈ U.adj r, NxWalk U (r :: ([x] ++ [r])) := by
      intro x hx p hp
      simp only [hcon, List.mem_cons, List.not_mem_nil, or_false] at hp
      rcases hp with rfl | rfl
      · exact hx
      · exact h.und.symm _ _ hx
    refine ⟨[a], [b], by simp, by simp, by simp [hra, hrb, hab], hw a ha, hw b hb, ?_⟩
    simp only [walkWeight, hcon, List.map_cons, List.map_nil, List.sum_cons, List.sum_nil]
    rw [h.symm r a ha, h.symm r b hb]
    omega
  refine ⟨fun c hc => ?_, fun hc a b hab ha hb => ?_⟩
  · obtain ⟨h1, h2⟩ := h.entry hc
    rw [disjointWalks_loops hl] at h1
    have h3 : ∀ c', TwoLoops U cost r c' → c ≤ c' := fun c' hc' => h2 c' ((disjointWalks_loops hl).2 hc')
    exact ⟨h1, h3, fun a b hab ha hb => h3 _ (edge a b hab ha hb)⟩
  · exact h.no_entry hc ((disjointWalks_loops hl).2 (edge a b hab ha hb))

example : (∀ u, u ∉ four.adj u) ∧
    dictGet (vertexDisjointCostMap (plainNames 4) fourRun.1 fourRun.2 (treeNodes 4 fourDij)) 0 = some 40 := by decide +kernel

/-- **C86.** The distances that the binding hands to the solver: the entry of the map, and 0 for a vertex without entry. -/
theorem C86_filled {D : List V} (hD : D.Nodup) (h : SuurballeOn U cost A tail head names r dij depth T st)
    (hin : ∀ x c, dictGet (vertexDisjointCostMap names T st (treeNodes (head r) dij)) x = some c → x ∈ D) :
    ∃ dist, fillVertexMap (number 0 D) (vertexDisjointCostMap names T st (treeNodes (head r) dij)) (fun _ => 0) = .ok dist ∧
      ∀ k x, D[k]? = some x → dist k = (dictGet (vertexDisjointCostMap names T st (treeNodes (head r) dij)) x).getD 0 := by
  obtain ⟨dist, h1, h2⟩ := fillVertexMap_spec hD (fun x => (dictGet (vertexDisjointCostMap names T st (treeNodes (head r) dij)) x).getD 0)
    (vertexDisjointCostMap names T st (treeNodes (head r) dij))
    (fun x c hx => by rw [(dictGet_eq_some h.costMap_nodup).2 hx, Option.getD_some])
    (fun x c hx => hin x c ((dictGet_eq_some h.costMap_nodup).2 hx)) (fun _ => 0)
  refine ⟨dist, h1, fun k x hk => ?_⟩
  rcases h2 k x hk with h3 | ⟨h3, h4⟩
  · exact h3
  · rw [h3, dictGet_eq_none.2]
    · rfl
    · intro hx
      obtain ⟨e, he, rfl⟩ := List.mem_map.1 hx
      exact h4 e.2 he

example : ∃ dist, fillVertexMap (number 0 [(0 : Fin 4), 1, 2, 3]) (vertexDisjointCostMap (plainNames 4) fourRun.1 fourRun.2 (treeNodes 4 fourDij))
    (fun _ => 0) = .ok dist ∧ ((List.range 4).map dist) = [40, 21, 21, 35] := by
  have h : (match fillVertexMap (number 0 [(0 : Fin 4), 1, 2, 3]) (vertexDisjointCostMap (plainNames 4) fourRun.1 fourRun.2 (treeNodes 4 fourDij))
    (fun _ => 0) with | .ok dist => (List.range 4).map dist | _ => []) = [40, 21, 21, 35] := by decide +kernel
  revert h
  cases fillVertexMap (number 0 [(0 : Fin 4), 1, 2, 3]) (vertexDisjointCostMap (plainNames 4) fourRun.1 fourRun.2 (treeNodes 4 fourDij)) (fun _ => 0) with
  | ok d => exact fun h => ⟨d, rfl, h⟩
  | throw _ => simp
  | ub _ => simp

/-- **C86.** As long as the entry of the root does not exceed the upper bound, the rows hold for every tour whose objective is at most the upper bound. -/
theorem C86_rows (h : SuurballeOn U cost A tail head names r dij depth T st) {g : Graph} (hg : SimpleWithLoops g) {gcost : Nat → Int}
    (hc : ∀ e < g.edges.length, 0 ≤ gcost e) {name : Nat → V} (hn : NamedIn g gcost name U cost) {root : Nat} (hroot : root < g.n) (hr : name root = r)
    {dist : Nat → Int} (hd : ∀ v < g.n, dist v = (dictGet (vertexDisjointCostMap names T st (treeNodes (head r) dij)) (name v)).getD 0) {ub : Int}
    (hub : dist root ≤ ub) :
    ∃ rows, separateThenAddCostCover g g.hasVar root dist ub = .ok rows ∧
      rows.length = ((List.range g.n).filter fun v => decide (ub < dist v)).length ∧
      ∀ row ∈ rows, ∀ t es x, IsTour g root t → IncidenceOf g t es x → objective g gcost x ≤ ub → row.Sat x := by
  refine C38_disjoint_paths hg.loops hc hroot (.inr hub) ?_
  intro v hv hne d hdis
  rw [hd v hv]
  cases he : dictGet (vertexDisjointCostMap names T st (treeNodes (head r) dij)) (name v) with
  | none =>
    obtain ⟨a, b, es, fs, -, -, h1, h2, rfl⟩ := hdis
    have hin : ∀ l es, WalkEdges g es l → ∀ e ∈ es, e < g.edges.length := by
      intro l es hw e he
      obtain ⟨p, -, hp⟩ := forall₂_left_mem hw he
      rcases hp with hp | hp <;> exact (List.getElem?_eq_some_iff.1 hp).1
    simp only [Option.getD_none]
    have hall : ∀ e ∈ es ++ fs, 0 ≤ gcost e := by
      intro e he
      rcases List.mem_append.1 he with he | he
      · exact hc e (hin _ _ h1 e he)
      · exact hc e (hin _ _ h2 e he)
    generalize es ++ fs = l at hall
    induction l with
    | nil => simp
    | cons e l ih =>
      have h3 := hall e (by simp)
      have h4 := ih fun e he => hall e (by simp [he])
      simp only [List.map_cons, List.sum_cons]
      omega
  | some c =>
    have := (h.entry he).2 d (hr ▸ hn.disjoint h.und h.symm hg hne hdis)
    simpa using this

/-- **C86.** If the entry of the root exceeds the upper bound, one of the rows holds for no tour at all. -/
theorem C86_excludes {g : Graph} (hl : ∀ v < g.n, (v, v) ∈ g.edges) {root : Nat} (hroot : root < g.n) {dist : Nat → Int} {ub : Int}
    (hub : ub < dist root) :
    ∃ rows, separateThenAddCostCover g g.hasVar root dist ub = .ok rows ∧
      ∃ row ∈ rows, ∀ t es x, IsTour g root t → IncidenceOf g t es x → ¬ row.Sat x := by
  obtain ⟨rows, h1, h2⟩ := costCover_rows hl hroot dist ub
  have hm : root ∈ separateCostCoverPaths g dist ub := by simp [separateCostCoverPaths, hroot, hub]
  obtain ⟨i, hi, e⟩ := List.getElem_of_mem hm
  have hi' : i < rows.length := by rw [← h2.length_eq]; exact hi
  have h3 := h2.get hi hi'
  simp only [List.get_eq_getElem, e] at h3
  refine ⟨rows, h1, rows[i], List.getElem_mem _, ?_⟩
  intro t es x ht hinc hsat
  have hx : loopVal g x root = 1 := by
    rw [loopVal_incidence hinc (hl root hroot), if_pos]
    obtain ⟨m, rfl⟩ := ht.shape
    simp
  have := hsat.2 1 h3.2.2.1
  rw [h3.2.2.2, hx] at this
  omega

/-- The graph of the solver for `four`: the edges and the self-loops. -/
def fourG : Graph := { n := 4, edges := [(0, 1), (0, 2), (0, 3), (1, 2), (1, 3), (2, 3), (0, 0), (1, 1), (2, 2), (3, 3)] }

def fourGCost (e : Nat) : Int := [10, 10, 10, 1, 15, 15].getD e 0

/-- The distances of `four`, as `C86_filled` gives them. -/
def fourDist (v : Nat) : Int := (dictGet (vertexDisjointCostMap (plainNames 4) fourRun.1 fourRun.2 (treeNodes 4 fourDij)) (Fin.ofNat 4 v)).getD 0

theorem fourG_named : NamedIn fourG fourGCost (Fin.ofNat 4) four fourCost where
  inj u v hu hv h := by
    have h' := congrArg Fin.val h
    simp only [fourG] at hu hv
    simpa [Nat.mod_eq_of_lt hu, Nat.mod_eq_of_lt hv] using h'
  edge e u v he hne := by
    have key : ∀ e < fourG.edges.length, ∀ p ∈ fourG.edges[e]?, p.1 ≠ p.2 →
        Fin.ofNat 4 p.2 ∈ four.adj (Fin.ofNat 4 p.1) ∧ fourGCost e = fourCost (Fin.ofNat 4 p.1) (Fin.ofNat 4 p.2) := by decide
    exact key e (List.getElem?_eq_some_iff.1 he).1 (u, v) he hne

example := C86_rows four_on (g := fourG) (by decide) (by decide) fourG_named (root := 0) (by decide) rfl (dist := fourDist) (fun _ _ => rfl)
  (ub := 40) (by decide +kernel)
example := C86_excludes (g := fourG) (by decide) (root := 0) (by decide) (dist := fourDist) (ub := 35) (by decide +kernel)

/-- `C86_rows` applies to `four` with the upper bound 40. -/
example : SimpleWithLoops fourG ∧ (∀ e < fourG.edges.length, 0 ≤ fourGCost e) ∧ fourDist 0 = 40 ∧ (fourDist 1, fourDist 2, fourDist 3) = (21, 21, 35) := by
  decide +kernel

/-- **C86.** In `four` the tour 0, 1, 2 costs 21 and the tour 0, 1, 3 costs 35.  With the latter as initial solution there is a row that
excludes all tours: those two and every other one. -/
theorem C86_wrong :
    (IsTour fourG 0 [0, 1, 2, 0] ∧ walkCost fourG fourGCost [0, 1, 2, 0] = 21) ∧ (IsTour fourG 0 [0, 1, 3, 0] ∧ walkCost fourG fourGCost [0, 1, 3, 0] = 35) ∧
    ∃ rows, separateThenAddCostCover fourG fourG.hasVar 0 fourDist 35 = .ok rows ∧
      ∃ row ∈ rows, ∀ t es x, IsTour fourG 0 t → IncidenceOf fourG t es x → ¬ row.Sat x := by
  refine ⟨⟨⟨⟨[1, 2], rfl⟩, by decide, by decide⟩, by decide⟩, ⟨⟨⟨[1, 3], rfl⟩, by decide, by decide⟩, by decide⟩, ?_⟩
  exact C86_excludes (by decide) (by decide) (by decide +kernel)

end Pctsp
