import Verif.Props.Suurballe
import Verif.Lemmas.SuurballeSimple

/-!
# C83, C84: Suurballe's algorithm on graphs with split vertices
-/

set_option linter.unusedSectionVars false

namespace Pctsp

variable {V : Type} [LinearOrder V] {G : DiGraph V} {s : V} {dij : DijkstraOut V}

theorem IsDijkstra.dist_nonneg (hg : G.WF) (h : IsDijkstra G s dij) {v : V} (hv : v ∈ dij.distKeys) : 0 ≤ dij.dist v := by
  refine h.tree_induction (P := fun v => 0 ≤ dij.dist v) (by rw [h.distSource]) ?_ v hv
  intro u v _ huv hd ih
  have := hg.nonneg u v huv
  omega

/-! ## C83: the reported costs are exact -/

/-- The cost of a vertex with a finite tentative distance is the least cost of two paths without a common edge. -/
theorem exact_of_tent (hg : G.WF) (hsp : G.SplitLike s) (h : IsDijkstra G s dij) {depth : Nat} {T : STree V} {st : SState V}
    (hok : suurballe G dij depth s = .ok (T, st)) {t : V} (ht : t ∈ dij.distKeys) (hfin : st.tent t ≠ maxsize) :
    EdgeDisjointPair G s t (edgeDisjointPathCost T st t) ∧ ∀ c, EdgeDisjointPair G s t c → edgeDisjointPathCost T st t ≤ c := by
  obtain ⟨hT, hr, hh⟩ := run_of_ok hg h hok
  have hlow : ∀ c, EdgeDisjointPair G s t c → edgeDisjointPathCost T st t ≤ c := by
    intro c hp
    rw [edgeDisjointPathCost, if_neg hfin, hT.dist]
    by_cases hlt : c - 2 * dij.dist t < maxsize
    · have := suurballe_complete hg h hT hsp hr hh ht hp hlt
      omega
    · have := (suurballe_certified hg h hT hr).1.bounded t
      omega
  obtain ⟨c, hle, hp⟩ := ((suurballe_certified hg h hT hr).2 t hfin).pair hg h ht
  have := hlow c hp
  rw [edgeDisjointPathCost, if_neg hfin, hT.dist] at this hlow ⊢
  have e : c = 2 * dij.dist t + st.tent t := by omega
  exact ⟨e ▸ hp, hlow⟩

/-- C83.  On a graph with split vertices a reported cost other than `sys.maxsize` is the least cost of two paths without a common edge. -/
theorem C83_exact (hg : G.WF) (hsp : G.SplitLike s) (h : IsDijkstra G s dij) {depth : Nat} {T : STree V} {st : SState V}
    (hok : suurballe G dij depth s = .ok (T, st)) {t : V} (ht : t ∈ dij.distKeys) (hc : edgeDisjointPathCost T st t ≠ maxsize) :
    EdgeDisjointPair G s t (edgeDisjointPathCost T st t) ∧ ∀ c, EdgeDisjointPair G s t c → edgeDisjointPathCost T st t ≤ c :=
  exact_of_tent hg hsp h hok ht fun e => hc (by rw [edgeDisjointPathCost, if_pos e])

/-- C83.  It reports `sys.maxsize` just for the vertices without two such paths of a cost below `sys.maxsize`. -/
theorem C83_none (hg : G.WF) (hsp : G.SplitLike s) (h : IsDijkstra G s dij) {depth : Nat} {T : STree V} {st : SState V}
    (hok : suurballe G dij depth s = .ok (T, st)) {t : V} (ht : t ∈ dij.distKeys) (hc : edgeDisjointPathCost T st t = maxsize) :
    ∀ c, EdgeDisjointPair G s t c → maxsize ≤ c := by
  obtain ⟨hT, hr, hh⟩ := run_of_ok hg h hok
  intro c hp
  by_contra hlt
  have h0 := h.dist_nonneg hg ht
  have h1 := suurballe_complete hg h hT hsp hr hh ht hp (by omega)
  rw [edgeDisjointPathCost] at hc
  split at hc
  · omega
  · rw [hT.dist] at hc; omega

/-- C83.  The vertices with a label are those with a finite tentative distance. -/
theorem C83_labeled (hg : G.WF) (h : IsDijkstra G s dij) {depth : Nat} {T : STree V} {st : SState V}
    (hok : suurballe G dij depth s = .ok (T, st)) {t : V} (ht : t ∈ dij.distKeys) : st.labeled t = true ↔ st.tent t ≠ maxsize := by
  obtain ⟨hT, hr, hh⟩ := run_of_ok hg h hok
  obtain ⟨ord, hd⟩ := suurballe_dinv hg h hT hr
  rw [hd.lab]
  refine ⟨hd.fin t, fun hfin => ?_⟩
  by_contra hno
  have := hd.queued t ht hfin hno
  rw [hh] at this
  simp at this

example : triSplit.WF ∧ triSplit.SplitLike 3 ∧ IsDijkstra triSplit 3 triDij ∧ 1 ∈ triDij.distKeys ∧
    (match suurballe triSplit triDij 10 3 with | .ok (T, st) => (edgeDisjointPathCost T st 1, edgeDisjointPathCost T st 4) | _ => (0, 0)) = (21, maxsize) :=
  ⟨triSplit_wf, triSplit_splitLike, triDij_ok, by decide, by decide +kernel⟩

/-! ## C84: the extracted paths -/

/-- C84.  On a graph with split vertices the extracted walks have no common edge and together cost at most what was reported.  They visit the
source just at the start and the target just at the end. -/
theorem C84_disjoint (hg : G.WF) (hsp : G.SplitLike s) (h : IsDijkstra G s dij) {depth : Nat} {T : STree V} {st : SState V}
    (hok : suurballe G dij depth s = .ok (T, st)) {t : V} (ht : t ∈ dij.distKeys) (hts : s ≠ t) (hfin : st.tent t ≠ maxsize)
    {fuel : Nat} (hf : (dij.distKeys.length + 1) * (dij.distKeys.length + 1) ≤ fuel) :
    ∃ p q, extractPaths T st fuel s t = .ok (p, q) ∧ DWalkFrom G s t p ∧ DWalkFrom G s t q ∧ (consec p ++ consec q).Nodup ∧
      walkWeight G.weight p + walkWeight G.weight q ≤ edgeDisjointPathCost T st t ∧
      s ∉ p.tail ∧ s ∉ q.tail ∧ t ∉ p.dropLast ∧ t ∉ q.dropLast := by
  obtain ⟨hT, hr, hh⟩ := run_of_ok hg h hok
  obtain ⟨p, q, h1, h2, h3, h4, h5⟩ := extractPaths_ok hg h hT hr hh ht hts hfin hf
  obtain ⟨h6, h7⟩ := extractPaths_disjoint hg h hT hsp hr hh ht hts hfin h1 h5
  exact ⟨p, q, h1, h2, h3, h6, by rw [edgeDisjointPathCost, if_neg hfin, hT.dist]; exact h4, h7⟩

/-- The paths that are extracted for a vertex with a finite tentative distance. -/
theorem simple_of_tent (hg : G.WF) (hsp : G.SplitLike s) (hns : G.Narrow s) (h : IsDijkstra G s dij) {depth : Nat} {T : STree V} {st : SState V}
    (hok : suurballe G dij depth s = .ok (T, st)) {t : V} (ht : t ∈ dij.distKeys) (hts : s ≠ t) (hfin : st.tent t ≠ maxsize)
    {fuel : Nat} (hf : (dij.distKeys.length + 1) * (dij.distKeys.length + 1) ≤ fuel) :
    ∃ p q, extractPaths T st fuel s t = .ok (p, q) ∧ DWalkFrom G s t p ∧ DWalkFrom G s t q ∧ (consec p ++ consec q).Nodup ∧
      p.Nodup ∧ q.Nodup ∧ (∀ z ∈ p, z ∈ q → z = s ∨ z = t) ∧
      walkWeight G.weight p + walkWeight G.weight q = edgeDisjointPathCost T st t ∧
      ∀ c, EdgeDisjointPair G s t c → walkWeight G.weight p + walkWeight G.weight q ≤ c := by
  obtain ⟨p, q, h1, h2, h3, h4, h5, h6, h7, h8, h9⟩ := C84_disjoint hg hsp h hok ht hts hfin hf
  obtain ⟨n1, n2, n3⟩ := pair_simple hns h2 h3 h4 h6 h7 h8 h9
  obtain ⟨_, hlow⟩ := exact_of_tent hg hsp h hok ht hfin
  have h10 := hlow _ ⟨p, q, h2, h3, n1, n2, h4, rfl⟩
  exact ⟨p, q, h1, h2, h3, h4, n1, n2, n3, by omega, fun c hp => (h5.trans (hlow c hp))⟩

/-- C84.  If moreover every vertex has at most one edge into it or at most one edge out of it, both are paths without repeated vertices that
meet just at their ends, and no two paths without a common edge cost less. -/
theorem C84_simple (hg : G.WF) (hsp : G.SplitLike s) (hns : G.Narrow s) (h : IsDijkstra G s dij) {depth : Nat} {T : STree V} {st : SState V}
    (hok : suurballe G dij depth s = .ok (T, st)) {t : V} (ht : t ∈ dij.distKeys) (hts : s ≠ t) (hc : edgeDisjointPathCost T st t ≠ maxsize)
    {fuel : Nat} (hf : (dij.distKeys.length + 1) * (dij.distKeys.length + 1) ≤ fuel) :
    ∃ p q, extractPaths T st fuel s t = .ok (p, q) ∧ DWalkFrom G s t p ∧ DWalkFrom G s t q ∧ (consec p ++ consec q).Nodup ∧
      p.Nodup ∧ q.Nodup ∧ (∀ z ∈ p, z ∈ q → z = s ∨ z = t) ∧
      walkWeight G.weight p + walkWeight G.weight q = edgeDisjointPathCost T st t ∧
      ∀ c, EdgeDisjointPair G s t c → walkWeight G.weight p + walkWeight G.weight q ≤ c :=
  simple_of_tent hg hsp hns h hok ht hts (fun e => hc (by rw [edgeDisjointPathCost, if_pos e])) hf

example : triSplit.WF ∧ triSplit.SplitLike 3 ∧ triSplit.Narrow 3 ∧ IsDijkstra triSplit 3 triDij ∧ 0 ∈ triDij.distKeys ∧
    (match suurballe triSplit triDij 10 3 with
      | .ok (T, st) => (edgeDisjointPathCost T st 0, (match extractPaths T st 49 3 0 with | .ok r => r | _ => ([], [])))
      | _ => (0, ([], []))) = (40, ([3, 2, 5, 0], [3, 1, 4, 0])) :=
  ⟨triSplit_wf, triSplit_splitLike, triSplit_narrow, triDij_ok, by decide, by decide +kernel⟩

end Pctsp
