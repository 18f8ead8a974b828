import Verif.Props.Cut
import Verif.Props.Solution
import Mathlib.Tactic.Linarith

/-!
# Property theorems: the support graph of a solution (C150)
-/

namespace Pctsp

/-- **C150.** If every edge has a variable, the edges of the view are the edges with a positive variable, self-loops included, each once and in order;
counting them gives their number.  Without the self-loops they are the edges that the solution consists of. -/
theorem C150_edges (g : Graph) (hasVar pos : Nat → Bool) (hv : ∀ e < g.edges.length, hasVar e = true) {order : List Nat}
    (ho : order.Perm (List.range g.edges.length)) :
    ∃ es, supportEdges g hasVar pos = .ok es ∧ es.Pairwise (· < ·) ∧ (∀ e, e ∈ es ↔ e < g.edges.length ∧ pos e = true) ∧
      numEdgesInFilteredGraph g hasVar pos = .ok es.length ∧
      (∀ e, e ∈ getSolutionEdges g order pos ↔ e ∈ es ∧ ∀ v, g.edges[e]? ≠ some (v, v)) := by
  have h : supportEdges g hasVar pos = .ok ((List.range g.edges.length).filter fun e => pos e) :=
    supportFilter_ok fun e he => hv e (List.mem_range.1 he)
  refine ⟨_, h, List.Pairwise.sublist List.filter_sublist List.pairwise_lt_range, by simp, ?_, fun e => ?_⟩
  · rw [numEdgesInFilteredGraph, h, Res.ok_bind, Res.pure_eq]
  · rw [mem_getSolutionEdges ho]
    simp only [List.mem_filter, List.mem_range]
    constructor
    · rintro ⟨u, v, hp, huv, hpos⟩
      exact ⟨⟨(List.getElem?_eq_some_iff.1 hp).1, hpos⟩, fun w hw => huv (by rw [hp] at hw; cases hw; rfl)⟩
    · rintro ⟨⟨hlt, hpos⟩, hno⟩
      refine ⟨g.edges[e].1, g.edges[e].2, List.getElem?_eq_getElem hlt, fun heq => ?_, hpos⟩
      exact hno g.edges[e].1 (by rw [List.getElem?_eq_getElem hlt]; congr 1; exact Prod.ext rfl heq.symm)

example := C150_edges { n := 3, edges := [(0, 1), (1, 2), (0, 0), (2, 0)] } (fun _ => true) (fun e => e == 0 || e == 2) (by simp) (order := [3, 1, 0, 2]) (by decide)

/-- The neighbour relation of the view, as a search sees it. -/
def SupportStep (g : Graph) (hasVar pos : Nat → Bool) (u v : Nat) : Prop := ∃ out e, supportOutEdges g hasVar pos u = .ok out ∧ (e, v) ∈ out

/-- **C150.** The out-edges of a vertex in the view are its edges with a positive variable; the two ends of an edge see each other. -/
theorem C150_neighbours (g : Graph) (hasVar pos : Nat → Bool) (hv : ∀ e < g.edges.length, hasVar e = true) {u : Nat} (hu : u < g.n) :
    ∃ out, supportOutEdges g hasVar pos u = .ok out ∧ (∀ e v, (e, v) ∈ out ↔ EdgeBetween g e u v ∧ pos e = true) ∧
      (out.map Prod.snd).Sublist (g.adjacent u) := by
  have hlt : ∀ a ∈ g.outEdges u, a.1 < g.edges.length := by
    rintro ⟨e, v⟩ ha
    rcases mem_outEdges.1 ha with h | h <;> exact (List.getElem?_eq_some_iff.1 h).1
  refine ⟨_, by rw [supportOutEdges, if_pos hu, supportFilter_ok fun a ha => hv _ (hlt a ha)], fun e v => ?_, ?_⟩
  · rw [List.mem_filter, mem_outEdges]
  · rw [← outEdges_snd]; exact List.filter_sublist.map _

example := C150_neighbours { n := 3, edges := [(0, 1), (1, 2), (0, 0), (2, 0)] } (fun _ => true) (fun e => e == 0 || e == 2) (by simp) (u := 0) (by decide)

/-- **C150.** Two vertices are in the same component of the view iff they are joined by edges with positive values: what the separation algorithms are
told about the components of the solution. -/
theorem C150_components (g : Graph) (hg : g.WF) (hasVar : Nat → Bool) (x : Nat → Int) (hv : ∀ e < g.edges.length, hasVar e = true) (s t : Nat) :
    Relation.ReflTransGen (SupportStep g hasVar fun e => decide (0 < x e)) s t ↔ SupportConnected g x s t := by
  have hstep : ∀ u v, SupportStep g hasVar (fun e => decide (0 < x e)) u v ↔ SupportAdj g x u v := by
    intro u v
    constructor
    · rintro ⟨out, e, h1, h2⟩
      have hu : u < g.n := by
        by_contra hlt
        rw [supportOutEdges, if_neg hlt] at h1; cases h1
      obtain ⟨out', h3, h4, -⟩ := C150_neighbours g hasVar (fun e => decide (0 < x e)) hv hu
      rw [h1] at h3; cases h3
      obtain ⟨h5, h6⟩ := (h4 e v).1 h2
      exact ⟨e, h5, by simpa using h6⟩
    · rintro ⟨e, h1, h2⟩
      have hu : u < g.n := by
        rcases h1 with h | h
        · exact (hg _ (List.mem_of_getElem? h)).1
        · exact (hg _ (List.mem_of_getElem? h)).2
      obtain ⟨out, h3, h4, -⟩ := C150_neighbours g hasVar (fun e => decide (0 < x e)) hv hu
      exact ⟨out, e, h3, (h4 e v).2 ⟨h1, by simpa using h2⟩⟩
  have : SupportStep g hasVar (fun e => decide (0 < x e)) = SupportAdj g x := by
    funext u v; exact propext (hstep u v)
  rw [this, SupportConnected]

example := C150_components { n := 3, edges := [(0, 1), (1, 2), (0, 0), (2, 0)] } (by decide) (fun _ => true) (fun e => if e = 1 then 1 else 0) (by simp) 2 1

/-- **C150.** An edge without a variable makes going through the edges undefined, and asking one of its ends for its neighbours. -/
theorem C150_no_variable (g : Graph) (hasVar pos : Nat → Bool) {e u v : Nat} (he : g.edges[e]? = some (u, v)) (hv : hasVar e = false) :
    (∃ w, supportEdges g hasVar pos = .ub w) ∧ (∃ w, numEdgesInFilteredGraph g hasVar pos = .ub w) ∧
      (∃ w, supportOutEdges g hasVar pos u = .ub w) ∧ ∃ w, supportOutEdges g hasVar pos v = .ub w := by
  have h1 : ∃ w, supportEdges g hasVar pos = .ub w :=
    supportFilter_short ⟨e, List.mem_range.2 (List.getElem?_eq_some_iff.1 he).1, hv⟩
  refine ⟨h1, ?_, ?_, ?_⟩
  · obtain ⟨w, hw⟩ := h1
    exact ⟨w, by rw [numEdgesInFilteredGraph, hw, Res.ub_bind]⟩
  · rw [supportOutEdges]
    split
    · exact supportFilter_short ⟨(e, v), mem_outEdges.2 (Or.inl he), hv⟩
    · exact ⟨_, rfl⟩
  · rw [supportOutEdges]
    split
    · exact supportFilter_short ⟨(e, u), mem_outEdges.2 (Or.inr he), hv⟩
    · exact ⟨_, rfl⟩

example := C150_no_variable { n := 3, edges := [(0, 1), (1, 2)] } (fun e => e == 0) (fun _ => true) (e := 1) (u := 1) (v := 2) rfl rfl

/-- **C150.** The view of the solution that belongs to a tour has twice as many edges as the tour has vertices: the edges of the tour and a self-loop for
each of its vertices. -/
theorem C150_tour {g : Graph} (hg : SimpleWithLoops g) {root : Nat} (hasVar : Nat → Bool) (hv : ∀ e < g.edges.length, hasVar e = true) {t es : List Nat}
    {x : Nat → Int} (ht : IsTour g root t) (hlen : 3 ≤ t.length) (hinc : IncidenceOf g t es x) :
    numEdgesInFilteredGraph g hasVar (fun e => decide (0 < x e)) = .ok (2 * (t.length - 1)) := by
  obtain ⟨r, h1, h2, h3, h4, h5⟩ := C150_edges g hasVar (fun e => decide (0 < x e)) hv (List.Perm.refl _)
  rw [h4]
  congr 1
  have hperm := (C87_edges (List.Perm.refl _) ht hlen hinc).1
  have heslen : es.length = t.length - 1 := by
    obtain ⟨ps, hp1, hp2⟩ := hinc.used
    have := hp2.length_eq
    simp only [List.length_map] at this
    rw [hp1.length_eq, this, consec]
    simp
  have hrnd : r.Nodup := h2.imp (fun h => Nat.ne_of_lt h)
  have hloopIdx : ∀ v ∈ t.dropLast, ∃ e : Nat, g.edges[e]? = some (v, v) := by
    intro v hvt
    have hvn : v < g.n := by
      have hvt' := List.dropLast_subset _ hvt
      obtain ⟨i, hi, rfl⟩ := List.getElem_of_mem hvt'
      have hw := ht.walk
      by_cases hlast : i + 1 < t.length
      · exact (adj_lt hg.wf (hw (t[i], t[i + 1]) (List.mem_iff_getElem.2 ⟨i, by simp [consec]; omega, by simp [consec]⟩))).1
      · exact (adj_lt hg.wf (hw (t[i - 1], t[i]) (List.mem_iff_getElem.2 ⟨i - 1, by simp [consec]; omega, by
          simp only [consec, List.getElem_zip, List.getElem_tail, Prod.mk.injEq, true_and]
          congr 1; omega⟩))).2
    obtain ⟨e, he⟩ := List.getElem?_of_mem (hg.loops v hvn)
    exact ⟨e, he⟩
  choose! L hL using hloopIdx
  have hsingle : ∀ i j v : Nat, g.edges[i]? = some (v, v) → g.edges[j]? = some (v, v) → i = j := by
    intro i j v hi hj
    exact List.nodup_iff_getElem?_ne_getElem? |> fun h => by
      by_contra hne
      rcases Nat.lt_or_gt_of_ne hne with hlt | hlt
      · exact (h.1 hg.simple) i j hlt (by simpa using (List.getElem?_eq_some_iff.1 hj).1) (by simp [hi, hj])
      · exact (h.1 hg.simple) j i hlt (by simpa using (List.getElem?_eq_some_iff.1 hi).1) (by simp [hi, hj])
  have hall : r.Perm (getSolutionEdges g (List.range g.edges.length) (fun e => decide (0 < x e)) ++ t.dropLast.map L) := by
    rw [List.perm_ext_iff_of_nodup hrnd]
    · intro e
      rw [List.mem_append, h5]
      constructor
      · intro he
        by_cases hl : ∃ v, g.edges[e]? = some (v, v)
        · right
          obtain ⟨v, hl⟩ := hl
          have hx := ((h3 e).1 he).2
          rw [decide_eq_true_eq, hinc.loop e v hl] at hx
          have hvt : v ∈ t := by by_contra hn; simp [hn] at hx
          have hvd : v ∈ t.dropLast := by
            obtain ⟨m, rfl⟩ := ht.shape
            rw [← List.cons_append, List.dropLast_concat]
            rcases List.mem_append.1 (by rwa [← List.cons_append] at hvt) with h | h
            · exact h
            · rw [List.mem_singleton.1 h]; exact List.mem_cons_self
          exact List.mem_map.2 ⟨v, hvd, hsingle _ _ _ (hL v hvd) hl⟩
        · left
          exact ⟨he, fun v h => hl ⟨v, h⟩⟩
      · rintro (⟨he, -⟩ | he)
        · exact he
        · obtain ⟨v, hvt, rfl⟩ := List.mem_map.1 he
          rw [h3]
          refine ⟨(List.getElem?_eq_some_iff.1 (hL v hvt)).1, ?_⟩
          rw [decide_eq_true_eq, hinc.loop _ v (hL v hvt), if_pos (List.dropLast_subset _ hvt)]
          decide
    · refine List.nodup_append.2 ⟨getSolutionEdges_nodup (List.Perm.refl _) _, ?_, ?_⟩
      · refine ht.nodup.map_on fun a ha b hb hab => ?_
        have h1 := hL a ha
        rw [hab, hL b hb] at h1
        simpa using h1.symm
      · intro e he f hf hef
        obtain ⟨v, hvt, rfl⟩ := List.mem_map.1 hf
        exact ((h5 e).1 he).2 v (by rw [hef]; exact hL v hvt)
  rw [hall.length_eq, List.length_append, hperm.length_eq, heslen]
  simp
  omega

example : numEdgesInFilteredGraph exTwo (fun _ => true) (fun e => decide (0 < exTriangle e)) = .ok 6 :=
  C150_tour (root := 0) (by decide) _ (by simp) (t := [0, 1, 2, 0]) ⟨⟨[1, 2], rfl⟩, by decide, by decide⟩ (by decide) exTriangle_incidence

/-- **C150.** A value counts as integral iff it is within the tolerance of an integer. -/
theorem C150_integral (eps : Rat) (values : List Rat) :
    isSolutionIntegral eps values = true ↔ ∀ v ∈ values, ∃ k : Int, |v - k| ≤ eps := by
  have hone : ∀ v : Rat, scipIsIntegral eps v = true ↔ ∃ k : Int, |v - k| ≤ eps := by
    intro v
    rw [scipIsIntegral, decide_eq_true_eq]
    have hf1 : (((v + eps).floor : Int) : Rat) ≤ v + eps := Rat.floor_le _
    have hf2 : v + eps < (((v + eps).floor : Int) : Rat) + 1 := by exact_mod_cast Rat.lt_floor_add_one (v + eps)
    constructor
    · intro h
      exact ⟨(v + eps).floor, abs_le.2 ⟨by linarith, h⟩⟩
    · rintro ⟨k, hk⟩
      obtain ⟨hk1, hk2⟩ := abs_le.1 hk
      have hle : k ≤ (v + eps).floor := Rat.le_floor_iff.2 (by linarith)
      have : ((k : Int) : Rat) ≤ (((v + eps).floor : Int) : Rat) := by exact_mod_cast hle
      linarith
  induction values with
  | nil => simp [isSolutionIntegral]
  | cons v vs ih =>
    rw [isSolutionIntegral, List.forall_mem_cons]
    refine Iff.trans ?_ (and_congr (hone v) ih)
    cases scipIsIntegral eps v <;> simp

example : isSolutionIntegral (1 / 1000) [1, 2 - 1 / 2000, 0] = true := by decide +kernel
example : isSolutionIntegral (1 / 1000) [1, 1 / 2, 0] = false := by decide +kernel

end Pctsp
