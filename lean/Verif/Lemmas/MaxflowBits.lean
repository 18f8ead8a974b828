import Verif.Lemmas.MaxflowCut

/-! # Cuts of concrete networks -/

namespace Pctsp

/-- The capacity of the pairs that cross `T`. -/
def crossSum (l : List ((Nat × Nat) × Int)) (T : Nat → Bool) : Int := (l.map fun p => if T p.1.1 != T p.1.2 then p.2 else 0).sum

theorem crossSum_congr {l : List ((Nat × Nat) × Int)} {n : Nat} (hl : ∀ p ∈ l, p.1.1 < n ∧ p.1.2 < n) {T T' : Nat → Bool} (h : ∀ v < n, T v = T' v) :
    crossSum l T = crossSum l T' := by
  rw [crossSum, crossSum]
  congr 1
  refine List.map_congr_left fun p hp => ?_
  rw [h _ (hl p hp).1, h _ (hl p hp).2]

/-- All lists of `n` truth values. -/
def allBits : Nat → List (List Bool)
  | 0 => [[]]
  | n + 1 => (allBits n).flatMap fun bs => [false :: bs, true :: bs]

theorem mem_allBits : ∀ bs : List Bool, bs ∈ allBits bs.length
  | [] => by simp [allBits]
  | b :: bs => by
    simp only [List.length_cons, allBits, List.mem_flatMap]
    exact ⟨bs, mem_allBits bs, by cases b <;> simp⟩

/-- The set of a list of truth values. -/
def setOf (bs : List Bool) (v : Nat) : Bool := bs.getD v false

/-- A claim about sets that depends only on the vertices below `n` has to be checked for the lists of `n` truth values only. -/
theorem forall_bits {n : Nat} {P : (Nat → Bool) → Prop} (hP : ∀ T T', (∀ v < n, T v = T' v) → P T → P T') (h : ∀ bs ∈ allBits n, P (setOf bs)) :
    ∀ T, P T := by
  intro T
  refine hP (setOf ((List.range n).map T)) T ?_ (h _ ?_)
  · intro v hv; simp [setOf, hv]
  · have := mem_allBits ((List.range n).map T); simpa using this

theorem edgeSum_crosses_congr {g : Graph} (hg : g.WF) (x : Nat → Int) {T T' : Nat → Bool} (h : ∀ v < g.n, T v = T' v) :
    edgeSum g x (crosses g T) = edgeSum g x (crosses g T') := by
  refine edgeSum_congr (fun e he => ?_) fun _ _ _ => rfl
  have hend : g.edges[e]? = some (endsOf g e) := by simp [endsOf, he]
  have := hg _ (List.mem_of_getElem? hend)
  rw [crosses_eq he, crosses_eq he, h _ this.1, h _ this.2]

theorem zip_names {D : List Nat} {ps ne : List (Nat × Nat)} (h : List.Forall₂ (Names D) ps ne) (cs : List Int) (T : Nat → Bool) :
    ((ne.zip cs).map fun p => if T (D.getD p.1.1 0) != T (D.getD p.1.2 0) then p.2 else 0).sum = crossSum (ps.zip cs) T := by
  induction h generalizing cs with
  | nil => rfl
  | @cons q p ps ne h1 h2 ih =>
    match cs with
    | [] => rfl
    | c :: cs =>
      have := ih cs
      rw [crossSum] at this ⊢
      simp only [List.zip_cons_cons, List.map_cons, List.sum_cons, this]
      have e1 : D.getD p.1 0 = q.1 := by rw [List.getD_eq_getElem?_getD, h1.1]; rfl
      have e2 : D.getD p.2 0 = q.2 := by rw [List.getD_eq_getElem?_getD, h1.2]; rfl
      rw [e1, e2]

variable {g : Graph} {order : List Nat} {x : Nat → Int} {root : Nat} {rc : List Nat}

/-- The value of the flow to a vertex of the support graph, whatever the order of the capacities: it is the capacity of the cut that the
search finds, no cut is smaller, and the cut contains every minimum cut. -/
theorem flow_value_zip {q : Int} (hq : 0 < q) (hx : ∀ e < g.edges.length, 0 ≤ x e) {flow : MaxFlow} (hflow : FlowSpec flow)
    {visit : Visit} (hvisit : VisitSpec visit) {ne : List (Nat × Nat)} {des : List ((Nat × Nat) × Int)}
    (hne : List.Forall₂ (Names (keptVertices g order x rc)) ((keptEdges g order x rc).map (endsOf g)) ne)
    (hdes : capacityEdges ne (getCapacityVectorFromSol g order q x) = .ok des) {sr t v : Nat}
    (hsr : (keptVertices g order x rc)[sr]? = some root) (ht : (keptVertices g order x rc)[t]? = some v) (htr : v ≠ root) :
    (flow des sr t).value = crossSum (((keptEdges g order x rc).map (endsOf g)).zip (getCapacityVectorFromSol g order q x))
        (cutSet flow visit des sr (keptVertices g order x rc) t) ∧
      cutSet flow visit des sr (keptVertices g order x rc) t root = false ∧ cutSet flow visit des sr (keptVertices g order x rc) t v = true ∧
      (∀ w, cutSet flow visit des sr (keptVertices g order x rc) t w = true → w ∈ keptVertices g order x rc) ∧
      ∀ T : Nat → Bool, T root = false → T v = true →
        (flow des sr t).value ≤ crossSum (((keptEdges g order x rc).map (endsOf g)).zip (getCapacityVectorFromSol g order q x)) T ∧
        (crossSum (((keptEdges g order x rc).map (endsOf g)).zip (getCapacityVectorFromSol g order q x)) T ≤ (flow des sr t).value →
          ∀ w ∈ keptVertices g order x rc, T w = true → cutSet flow visit des sr (keptVertices g order x rc) t w = true) := by
  set D := keptVertices g order x rc with hDdef
  have hD : D.Nodup := firstSeen_nodup _
  obtain ⟨hpair, -⟩ := capacityEdges_paired _ _ _ hdes
  have hcap : ∀ c ∈ getCapacityVectorFromSol g order q x, 0 ≤ c := by
    intro c hc
    rw [getCapacityVectorFromSol, List.mem_map] at hc
    obtain ⟨e, he, rfl⟩ := hc
    rw [capacityOf_eq hq]
    have := hx e (mem_solutionEdges.1 he).2.1
    exact Int.ediv_nonneg (Int.mul_nonneg (by decide) this) (by omega)
  have hst : sr ≠ t := by rintro rfl; rw [hsr] at ht; simp at ht; exact htr ht.symm
  have hmf := hflow _ _ _ hdes hcap sr t hst
  have hsum : ∀ (S : Nat → Bool) (T : Nat → Bool), (∀ k < D.length, S k = T (D.getD k 0)) →
      cutCapacity des S = crossSum (((keptEdges g order x rc).map (endsOf g)).zip (getCapacityVectorFromSol g order q x)) T := by
    intro S T hST
    rw [cutCapacity_capacityEdges _ _ _ hdes, ← zip_names hne]
    congr 1
    refine List.map_congr_left fun p hp => ?_
    have hp1 := (List.of_mem_zip hp).1
    obtain ⟨i, hi⟩ := List.mem_iff_getElem?.1 hp1
    obtain ⟨e', -, hn⟩ := (forall₂_getElem? hne).2 _ hi
    rw [hST _ (List.getElem?_eq_some_iff.1 hn.1).1, hST _ (List.getElem?_eq_some_iff.1 hn.2).1]
  obtain ⟨k1, k2, k3⟩ := hmf.eq_cut hpair hvisit
  have hset : ∀ (k w : Nat), D[k]? = some w → cutSet flow visit des sr D t w = !visit (positiveEdges des (flow des sr t).residual) sr k := by
    intro k w hk
    have hklt := (List.getElem?_eq_some_iff.1 hk).1
    rw [cutSet, Bool.eq_iff_iff, decide_eq_true_eq, mem_map_getD hD ?_ hk, getUnreachableVertices, List.mem_filter]
    · simp [hklt]
    · intro u hu; rw [getUnreachableVertices, List.mem_filter, List.mem_range] at hu; omega
  refine ⟨?_, ?_, ?_, ?_, ?_⟩
  · rw [k3]
    refine hsum _ _ fun k hk => ?_
    rw [hset k _ (by simp [hk])]
  · rw [hset sr root hsr, k1]; rfl
  · rw [hset t v ht, k2]; rfl
  · intro w hw
    rw [cutSet, decide_eq_true_eq, List.mem_map] at hw
    obtain ⟨u, hu, rfl⟩ := hw
    rw [getUnreachableVertices, List.mem_filter, List.mem_range] at hu
    rw [List.getD_eq_getElem?_getD, List.getElem?_eq_getElem hu.1]; exact List.getElem_mem hu.1
  · intro T h1 h2
    rw [← hsum (fun k => T (D.getD k 0)) T (fun k _ => rfl)]
    have hs : T (D.getD sr 0) = false := by simp [hsr, h1]
    have htt : T (D.getD t 0) = true := by simp [ht, h2]
    refine ⟨hmf.le_cut hpair _ hs htt, ?_⟩
    intro hmin w hw hTw
    obtain ⟨k, hk⟩ := List.mem_iff_getElem?.1 hw
    rw [hset k w hk, hmf.min_cut_subset hpair hvisit _ hs htt hmin k (by simp [hk, hTw])]; rfl

/-- A list is the component of the root if it starts with the root, every other element has a positive edge to an earlier one, and no positive
edge leaves it. -/
theorem isRootComponent_check {rest : List Nat} (h0 : ∀ v ∈ root :: rest, v < g.n)
    (h1 : ∀ i < rest.length, ∃ j < i + 1, ∃ e < g.edges.length, 0 < x e ∧
      (g.edges[e]? = some ((root :: rest).getD j 0, rest.getD i 0) ∨ g.edges[e]? = some (rest.getD i 0, (root :: rest).getD j 0)))
    (h2 : ∀ e < g.edges.length, 0 < x e → ((endsOf g e).1 ∈ root :: rest ↔ (endsOf g e).2 ∈ root :: rest)) :
    IsRootComponent g x root (root :: rest) := by
  have hconn : ∀ i < (root :: rest).length, SupportConnected g x root ((root :: rest).getD i 0) := by
    intro i
    induction i using Nat.strong_induction_on with
    | _ i ih =>
      intro hi
      cases i with
      | zero => exact .refl
      | succ i =>
        obtain ⟨j, hj, e, -, hpos, he⟩ := h1 i (by simpa using hi)
        refine (ih j hj (by omega)).tail ⟨e, ?_, hpos⟩
        exact he
  intro v
  constructor
  · intro hv
    refine ⟨h0 v hv, ?_⟩
    obtain ⟨i, hi, rfl⟩ := List.getElem_of_mem hv
    have := hconn i hi
    rwa [List.getD_eq_getElem?_getD, List.getElem?_eq_getElem hi] at this
  · rintro ⟨-, hc⟩
    induction hc with
    | refl => simp
    | tail _ hadj ih =>
      obtain ⟨e, he, hpos⟩ := hadj
      have hlt : e < g.edges.length := by rcases he with he | he <;> exact (List.getElem?_eq_some_iff.1 he).1
      have := h2 e hlt hpos
      rcases he with he | he
      · simp only [endsOf, he, Option.getD_some] at this; exact this.1 ih
      · simp only [endsOf, he, Option.getD_some] at this; exact this.2 ih

/-- Both sides of the cut have the same value. -/
theorem cutSide_edgeSum (hg : SimpleWithLoops g) (ho : order.Perm (List.range g.edges.length)) (hx : ∀ e < g.edges.length, 0 ≤ x e)
    (hrc : IsRootComponent g x root rc) {flow : MaxFlow} {visit : Visit} {des : List ((Nat × Nat) × Int)} {sr t : Nat} :
    edgeSum g x (crosses g fun v => decide (v ∈ cutSide flow visit des (keptVertices g order x rc).length sr (keptVertices g order x rc) t)) =
      edgeSum g x (crosses g (cutSet flow visit des sr (keptVertices g order x rc) t)) := by
  have hsideRc : ∀ w ∈ cutSide flow visit des (keptVertices g order x rc).length sr (keptVertices g order x rc) t, w ∈ rc := by
    intro w hc
    rw [cutSide, List.mem_map] at hc
    obtain ⟨z, hz, rfl⟩ := hc
    have hz' : z < (keptVertices g order x rc).length := by
      split at hz
      · rw [getUnreachableVertices, List.mem_filter, List.mem_range] at hz; exact hz.1
      · rw [getReachableVertices, List.mem_filter, List.mem_range] at hz; exact hz.1
    apply keptVertices_subset (order := order) (x := x) (g := g)
    rw [List.getD_eq_getElem?_getD, List.getElem?_eq_getElem hz']; exact List.getElem_mem hz'
  have hsetRc : ∀ w, cutSet flow visit des sr (keptVertices g order x rc) t w = true → w ∈ rc := by
    intro w hw
    rw [cutSet, decide_eq_true_eq, List.mem_map] at hw
    obtain ⟨u, hu, rfl⟩ := hw
    rw [getUnreachableVertices, List.mem_filter, List.mem_range] at hu
    apply keptVertices_subset (order := order) (x := x) (g := g)
    rw [List.getD_eq_getElem?_getD, List.getElem?_eq_getElem hu.1]; exact List.getElem_mem hu.1
  have hkey : ∀ e ∈ keptEdges g order x rc,
    ((decide ((endsOf g e).1 ∈ cutSide flow visit des (keptVertices g order x rc).length sr (keptVertices g order x rc) t)) !=
      (decide ((endsOf g e).2 ∈ cutSide flow visit des (keptVertices g order x rc).length sr (keptVertices g order x rc) t))) =
    (cutSet flow visit des sr (keptVertices g order x rc) t (endsOf g e).1 != cutSet flow visit des sr (keptVertices g order x rc) t (endsOf g e).2) :=
    fun e he => cutSide_crosses he
  generalize cutSide flow visit des (keptVertices g order x rc).length sr (keptVertices g order x rc) t = side at *
  generalize cutSet flow visit des sr (keptVertices g order x rc) t = T at *
  have hex2 : ∀ e < g.edges.length, 0 < x e → crosses g (fun v => decide (v ∈ side)) e = crosses g T e := by
    intro e he hpos
    rw [crosses_eq he, crosses_eq he]
    by_cases hne : (endsOf g e).1 = (endsOf g e).2
    · rw [hne]; simp
    by_cases hin : edgeIn g rc e = true
    · exact hkey e (mem_keptEdges.2 ⟨ho.mem_iff.2 (List.mem_range.2 he), he, hne, hpos, by simpa [edgeIn] using hin⟩)
    · -- an edge outside of the component meets neither side
      have hend : g.edges[e]? = some (endsOf g e) := by simp [endsOf, he]
      have hlt := hg.wf (endsOf g e) (List.mem_of_getElem? hend)
      have hadj : SupportAdj g x (endsOf g e).1 (endsOf g e).2 := ⟨e, Or.inl hend, hpos⟩
      have hiff : (endsOf g e).1 ∈ rc ↔ (endsOf g e).2 ∈ rc := by
        rw [hrc, hrc]
        exact ⟨fun h => ⟨hlt.2, h.2.tail hadj⟩, fun h => ⟨hlt.1, h.2.tail (supportAdj_symm hadj)⟩⟩
      have hout : (endsOf g e).1 ∉ rc ∧ (endsOf g e).2 ∉ rc := by
        simp only [edgeIn, Bool.and_eq_true, List.contains_eq_mem, decide_eq_true_eq] at hin
        tauto
      have hT : ∀ w, w ∉ rc → T w = false := fun w hw => Bool.eq_false_iff.2 fun hc => hw (hsetRc w hc)
      rw [hT _ hout.1, hT _ hout.2, decide_eq_false (fun hc => hout.1 (hsideRc _ hc)), decide_eq_false (fun hc => hout.2 (hsideRc _ hc))]
  rw [edgeSum, edgeSum, list_filter_sum, list_filter_sum]
  congr 1
  refine List.map_congr_left fun e he => ?_
  have he' := List.mem_range.1 he
  rcases (Int.le_iff_lt_or_eq.1 (hx e he')) with hpos | hz
  · rw [hex2 e he' hpos]
  · rw [← hz]; simp

/-! ### Steps of the loop over the targets -/

section Steps

variable {sv : Solver} {hasVar : Nat → Bool} {lookup : Bimap Nat} {flow : MaxFlow} {visit : Visit} {des : List ((Nat × Nat) × Int)} {n sr t : Nat}
  {ts vs : List Nat} {s s' : MaxflowState}

theorem targetLoop_done (h : s.done t = true) : maxflowTargetLoop sv g hasVar lookup flow visit des n sr root (t :: ts) s =
    maxflowTargetLoop sv g hasVar lookup flow visit des n sr root ts s := by
  rw [maxflowTargetLoop, if_pos h]

theorem targetLoop_high (h : ¬ (flow des sr t).value < 2 * flowMultiplier) :
    maxflowTargetLoop sv g hasVar lookup flow visit des n sr root (t :: ts) s = maxflowTargetLoop sv g hasVar lookup flow visit des n sr root ts s := by
  rw [maxflowTargetLoop]
  simp only [if_neg h, ite_self]

theorem targetLoop_low (h : s.done t = false) (hv : (flow des sr t).value < 2 * flowMultiplier)
    (hlen : 3 ≤ (getUnreachableVertices visit n des sr (flow des sr t).residual).length)
    (h1 : getOldVertices lookup (getUnreachableVertices visit n des sr (flow des sr t).residual) = .ok vs)
    (h2 : secUnreachableLoop sv g hasVar lookup vs root (getUnreachableVertices visit n des sr (flow des sr t).residual) s = .ok s') :
    maxflowTargetLoop sv g hasVar lookup flow visit des n sr root (t :: ts) s = maxflowTargetLoop sv g hasVar lookup flow visit des n sr root ts s' := by
  rw [maxflowTargetLoop, if_neg (by rw [h]; simp)]
  simp only [if_pos hv, ge_iff_le, if_pos hlen, h1, Res.ok_bind, h2]

end Steps

end Pctsp
