import Verif.Lemmas.Maxflow

/-! # Cuts of the support and cuts of the network -/

namespace Pctsp

theorem pairwise_filter_prefix {α : Type} (P : α → Bool) (l : List α) (h : l.Pairwise fun a b => P b = true → P a = true) :
    ∃ rest, l = l.filter P ++ rest := by
  induction l with
  | nil => exact ⟨[], rfl⟩
  | cons a l ih =>
    rw [List.pairwise_cons] at h
    by_cases ha : P a = true
    · obtain ⟨rest, hr⟩ := ih h.2
      exact ⟨rest, by rw [List.filter_cons_of_pos ha, List.cons_append, ← hr]⟩
    · have : l.filter P = [] := by
        rw [List.filter_eq_nil_iff]
        intro b hb hPb
        exact ha (h.1 b hb hPb)
      exact ⟨a :: l, by rw [List.filter_cons_of_neg ha, this]; rfl⟩

/-- No support edge outside of the root component comes before one inside. -/
def Aligned (g : Graph) (order : List Nat) (x : Nat → Int) (rc : List Nat) : Prop :=
  (getSolutionEdges g order fun e => decide (0 < x e)).Pairwise fun e f => edgeIn g rc f = true → edgeIn g rc e = true

theorem zip_append_right {α β : Type} (l : List α) (m r : List β) (h : l.length = m.length) : l.zip (m ++ r) = l.zip m := by
  induction l generalizing m with
  | nil => simp
  | cons a l ih =>
    match m, h with
    | b :: m, h => simp [ih m (by simpa using h)]

/-- If the order is aligned, the capacity of every support edge is the one of its value. -/
theorem aligned_capacities {g : Graph} {order : List Nat} {q : Int} {x : Nat → Int} {rc : List Nat} (h : Aligned g order x rc)
    {ne : List (Nat × Nat)} (hlen : ne.length = (keptEdges g order x rc).length) :
    ne.zip (getCapacityVectorFromSol g order q x) = ne.zip ((keptEdges g order x rc).map fun e => capacityOf q (x e)) := by
  obtain ⟨rest, hr⟩ := pairwise_filter_prefix (edgeIn g rc) _ h
  rw [getCapacityVectorFromSol, hr, List.map_append, zip_append_right]
  · rfl
  · rw [hlen, List.length_map]; rfl

/-- The sum of the capacities of the kept edges that cross `T`. -/
def keptCut (g : Graph) (kept : List Nat) (c : Nat → Int) (T : Nat → Bool) : Int :=
  (kept.map fun e => if T (endsOf g e).1 != T (endsOf g e).2 then c e else 0).sum

theorem cutCapacity_kept {g : Graph} {D kept : List Nat} {ne : List (Nat × Nat)} (h : List.Forall₂ (Names D) (kept.map (endsOf g)) ne)
    (c : Nat → Int) (T : Nat → Bool) :
    ((ne.zip (kept.map c)).map fun p => if T (D.getD p.1.1 0) != T (D.getD p.1.2 0) then p.2 else 0).sum = keptCut g kept c T := by
  induction kept generalizing ne with
  | nil => cases h; rfl
  | cons e kept ih =>
    rw [List.map_cons] at h
    cases h with
    | @cons _ p _ ne h1 h2 =>
      have := ih h2
      rw [keptCut] at this ⊢
      simp only [List.map_cons, List.zip_cons_cons, List.sum_cons, this]
      have e1 : D.getD p.1 0 = (endsOf g e).1 := by rw [List.getD_eq_getElem?_getD, h1.1]; rfl
      have e2 : D.getD p.2 0 = (endsOf g e).2 := by rw [List.getD_eq_getElem?_getD, h1.2]; rfl
      rw [e1, e2]

theorem list_sum_le {l : List Nat} {f f' : Nat → Int} (h : ∀ a ∈ l, f a ≤ f' a) : (l.map f).sum ≤ (l.map f').sum := by
  induction l with
  | nil => simp
  | cons a l ih =>
    have h1 := h a (by simp)
    have h2 := ih fun b hb => h b (by simp [hb])
    simp only [List.map_cons, List.sum_cons]; omega

theorem keptCut_le {g : Graph} {kept : List Nat} {c c' : Nat → Int} {T : Nat → Bool} (h : ∀ e ∈ kept, c e ≤ c' e) :
    keptCut g kept c T ≤ keptCut g kept c' T := by
  refine list_sum_le fun e he => ?_
  have := h e he
  split <;> omega

theorem keptCut_mul {g : Graph} {kept : List Nat} {c : Nat → Int} {T : Nat → Bool} (k : Int) :
    keptCut g kept (fun e => k * c e) T = k * keptCut g kept c T := by
  rw [keptCut, keptCut]
  induction kept with
  | nil => simp
  | cons e kept ih =>
    simp only [List.map_cons, List.sum_cons, ih, Int.mul_add]
    split <;> simp

theorem keptCut_congr {g : Graph} {kept : List Nat} {c : Nat → Int} {T T' : Nat → Bool}
    (h : ∀ e ∈ kept, (T (endsOf g e).1 != T (endsOf g e).2) = (T' (endsOf g e).1 != T' (endsOf g e).2)) :
    keptCut g kept c T = keptCut g kept c T' := by
  rw [keptCut, keptCut]
  congr 1
  refine List.map_congr_left fun e he => ?_
  rw [h e he]

theorem crosses_eq {g : Graph} {T : Nat → Bool} {e : Nat} (he : e < g.edges.length) : crosses g T e = (T (endsOf g e).1 != T (endsOf g e).2) := by
  simp [crosses, endsOf, he]

/-- The kept edges that cross, as a sum over all edges. -/
theorem keptCut_eq_edgeSum {g : Graph} {order : List Nat} (ho : order.Perm (List.range g.edges.length)) {x : Nat → Int} {rc : List Nat}
    (T : Nat → Bool) :
    keptCut g (keptEdges g order x rc) x T =
      edgeSum g (fun e => if (endsOf g e).1 ≠ (endsOf g e).2 ∧ 0 < x e ∧ edgeIn g rc e = true then x e else 0) (crosses g T) := by
  have h1 : keptEdges g order x rc = order.filter fun e => decide (e < g.edges.length ∧ (endsOf g e).1 ≠ (endsOf g e).2 ∧ 0 < x e ∧ edgeIn g rc e = true) := by
    rw [keptEdges, getSolutionEdges, List.filter_filter]
    refine List.filter_congr fun e he => ?_
    have hlt : e < g.edges.length := List.mem_range.1 (ho.mem_iff.1 he)
    rw [Bool.eq_iff_iff]
    simp only [hlt, List.getElem?_eq_getElem, endsOf, Option.getD_some, Bool.and_eq_true, decide_eq_true_eq, true_and]
    tauto
  have h2 : ∀ l : List Nat, (∀ e ∈ l, e < g.edges.length) → keptCut g (l.filter fun e => decide (e < g.edges.length ∧ (endsOf g e).1 ≠ (endsOf g e).2 ∧ 0 < x e ∧ edgeIn g rc e = true)) x T =
      ((l.filter (crosses g T)).map fun e => if (endsOf g e).1 ≠ (endsOf g e).2 ∧ 0 < x e ∧ edgeIn g rc e = true then x e else 0).sum := by
    intro l hl
    rw [keptCut, list_filter_sum, list_filter_sum]
    congr 1
    refine List.map_congr_left fun e he => ?_
    have hlt := hl e he
    rw [crosses_eq hlt]
    simp only [hlt, true_and, decide_eq_true_eq]
    split <;> split <;> simp_all
  rw [h1, h2 order (fun e he => List.mem_range.1 (ho.mem_iff.1 he)), edgeSum]
  exact ((ho.filter _).map _).sum_eq

theorem edgeSum_le {g : Graph} {x y : Nat → Int} {P : Nat → Bool} (h : ∀ e < g.edges.length, P e = true → x e ≤ y e) :
    edgeSum g x P ≤ edgeSum g y P := by
  refine list_sum_le fun e he => ?_
  rw [List.mem_filter, List.mem_range] at he
  exact h e he.1 he.2

theorem edgeSum_congr {g : Graph} {x y : Nat → Int} {P Q : Nat → Bool} (h : ∀ e < g.edges.length, P e = Q e)
    (h' : ∀ e < g.edges.length, P e = true → x e = y e) :
    edgeSum g x P = edgeSum g y Q := by
  have : (List.range g.edges.length).filter P = (List.range g.edges.length).filter Q :=
    List.filter_congr fun e he => h e (List.mem_range.1 he)
  rw [edgeSum, edgeSum, ← this]
  congr 1
  refine List.map_congr_left fun e he => ?_
  rw [List.mem_filter, List.mem_range] at he
  exact h' e he.1 he.2

section Round

variable {g : Graph} {order : List Nat} {x : Nat → Int} {root : Nat} {rc : List Nat}

/-- The list is the component of the root. -/
def IsRootComponent (g : Graph) (x : Nat → Int) (root : Nat) (rc : List Nat) : Prop := ∀ v, v ∈ rc ↔ v < g.n ∧ SupportConnected g x root v

/-- The kept edges cross a set at most as much as all edges. -/
theorem keptCut_le_edgeSum (ho : order.Perm (List.range g.edges.length)) (hx : ∀ e < g.edges.length, 0 ≤ x e) (T : Nat → Bool) :
    keptCut g (keptEdges g order x rc) x T ≤ edgeSum g x (crosses g T) := by
  rw [keptCut_eq_edgeSum ho]
  refine edgeSum_le fun e he _ => ?_
  have := hx e he
  split <;> omega

/-- For a set inside the root component, the kept edges cross exactly as much as all edges. -/
theorem keptCut_eq_of_subset (hg : g.WF) (ho : order.Perm (List.range g.edges.length)) (hx : ∀ e < g.edges.length, 0 ≤ x e)
    (hrc : IsRootComponent g x root rc) (T : Nat → Bool) (hT : ∀ v, T v = true → v ∈ rc) :
    keptCut g (keptEdges g order x rc) x T = edgeSum g x (crosses g T) := by
  rw [keptCut_eq_edgeSum ho]
  refine edgeSum_congr (fun _ _ => rfl) fun e he hc => ?_
  split
  · rfl
  · next hn =>
    have hx0 := hx e he
    by_contra hne
    apply hn
    have hpos : 0 < x e := by omega
    rw [crosses_eq he] at hc
    have hne' : (endsOf g e).1 ≠ (endsOf g e).2 := by intro h; rw [h] at hc; simp at hc
    refine ⟨hne', hpos, ?_⟩
    have hend : g.edges[e]? = some (endsOf g e) := by simp [endsOf, he]
    have hlt := hg (endsOf g e) (List.mem_of_getElem? hend)
    have hadj : SupportAdj g x (endsOf g e).1 (endsOf g e).2 := ⟨e, Or.inl hend, hpos⟩
    have h1 : T (endsOf g e).1 = true ∨ T (endsOf g e).2 = true := by
      cases h1 : T (endsOf g e).1 <;> cases h2 : T (endsOf g e).2 <;> simp_all
    rw [edgeIn]
    simp only [Bool.and_eq_true, List.contains_eq_mem, decide_eq_true_eq]
    rcases h1 with h1 | h1
    · have := ((hrc _).1 (hT _ h1)).2
      exact ⟨(hrc _).2 ⟨hlt.1, this⟩, (hrc _).2 ⟨hlt.2, this.tail hadj⟩⟩
    · have := ((hrc _).1 (hT _ h1)).2
      exact ⟨(hrc _).2 ⟨hlt.1, this.tail (supportAdj_symm hadj)⟩, (hrc _).2 ⟨hlt.2, this⟩⟩

/-- Every other vertex of the root component is in the support graph. -/
theorem mem_keptVertices_of_connected (hg : g.WF) (ho : order.Perm (List.range g.edges.length)) (hrc : IsRootComponent g x root rc) {v u : Nat}
    (hv : SupportConnected g x root v) (hu : SupportConnected g x v u) (hvu : v ≠ u) : v ∈ keptVertices g order x rc := by
  obtain ⟨z, e, he, hz, hpos⟩ := support_edge hu hvu
  have hlt : e < g.edges.length := by rcases he with he | he <;> exact (List.getElem?_eq_some_iff.1 he).1
  have hwf : v < g.n ∧ z < g.n := by
    rcases he with he | he
    · exact hg _ (List.mem_of_getElem? he)
    · exact (hg _ (List.mem_of_getElem? he)).symm
  have hvrc : v ∈ rc := (hrc v).2 ⟨hwf.1, hv⟩
  have hzrc : z ∈ rc := (hrc z).2 ⟨hwf.2, hv.tail ⟨e, he, hpos⟩⟩
  refine mem_keptVertices.2 ⟨e, mem_keptEdges.2 ⟨ho.mem_iff.2 (List.mem_range.2 hlt), hlt, ?_, hpos, ?_⟩, ?_⟩
  · rcases he with he | he <;> simp [endsOf, he]
    · exact hz
    · exact Ne.symm hz
  · rcases he with he | he <;> simp [endsOf, he, hvrc, hzrc]
  · rcases he with he | he <;> simp [endsOf, he]

theorem keptVertices_subset : ∀ v ∈ keptVertices g order x rc, v ∈ rc := by
  intro v hv
  obtain ⟨e, he, h⟩ := mem_keptVertices.1 hv
  obtain ⟨-, -, -, -, h1, h2⟩ := mem_keptEdges.1 he
  rcases h with rfl | rfl <;> assumption

/-- The unreachable vertices, as a set of vertices of the graph. -/
def cutSet (flow : MaxFlow) (visit : Visit) (des : List ((Nat × Nat) × Int)) (sr : Nat) (D : List Nat) (t : Nat) (v : Nat) : Bool :=
  decide (v ∈ (getUnreachableVertices visit D.length des sr (flow des sr t).residual).map fun u => D.getD u 0)

/-- Both sides of the cut are crossed by the same edges. -/
theorem cutSide_crosses {flow : MaxFlow} {visit : Visit} {des : List ((Nat × Nat) × Int)} {sr t : Nat} {e : Nat}
    (he : e ∈ keptEdges g order x rc) :
    ((decide ((endsOf g e).1 ∈ cutSide flow visit des (keptVertices g order x rc).length sr (keptVertices g order x rc) t)) !=
      (decide ((endsOf g e).2 ∈ cutSide flow visit des (keptVertices g order x rc).length sr (keptVertices g order x rc) t))) =
    (cutSet flow visit des sr (keptVertices g order x rc) t (endsOf g e).1 != cutSet flow visit des sr (keptVertices g order x rc) t (endsOf g e).2) := by
  set D := keptVertices g order x rc with hDdef
  have hD : D.Nodup := firstSeen_nodup _
  obtain ⟨a, ha⟩ := List.mem_iff_getElem?.1 (mem_keptVertices.2 ⟨e, he, Or.inl rfl⟩ : (endsOf g e).1 ∈ keptVertices g order x rc)
  obtain ⟨b, hb⟩ := List.mem_iff_getElem?.1 (mem_keptVertices.2 ⟨e, he, Or.inr rfl⟩ : (endsOf g e).2 ∈ keptVertices g order x rc)
  rw [← hDdef] at ha hb
  set un := getUnreachableVertices visit D.length des sr (flow des sr t).residual with hun
  set re := getReachableVertices visit D.length des sr (flow des sr t).residual with hre
  have hunlt : ∀ u ∈ un, u < D.length := by
    intro u hu; rw [hun, getUnreachableVertices, List.mem_filter, List.mem_range] at hu; omega
  have hrelt : ∀ u ∈ re, u < D.length := by
    intro u hu; rw [hre, getReachableVertices, List.mem_filter, List.mem_range] at hu; omega
  have hunre : ∀ u < D.length, (u ∈ re ↔ u ∉ un) := by
    intro u hu
    rw [hun, hre, getUnreachableVertices, getReachableVertices, List.mem_filter, List.mem_filter]
    simp [hu]
  have ha' := (List.getElem?_eq_some_iff.1 ha).1
  have hb' := (List.getElem?_eq_some_iff.1 hb).1
  rw [cutSet, cutSet, cutSide]
  simp only [← hun, ← hre]
  split
  · rfl
  · have e1 : decide ((endsOf g e).1 ∈ re.map fun u => D.getD u 0) = !decide ((endsOf g e).1 ∈ un.map fun u => D.getD u 0) := by
      rw [← decide_not, decide_eq_decide, mem_map_getD hD hrelt ha, mem_map_getD hD hunlt ha, hunre a ha']
    have e2 : decide ((endsOf g e).2 ∈ re.map fun u => D.getD u 0) = !decide ((endsOf g e).2 ∈ un.map fun u => D.getD u 0) := by
      rw [← decide_not, decide_eq_decide, mem_map_getD hD hrelt hb, mem_map_getD hD hunlt hb, hunre b hb']
    rw [e1, e2]
    cases decide ((endsOf g e).1 ∈ un.map fun u => D.getD u 0) <;> cases decide ((endsOf g e).2 ∈ un.map fun u => D.getD u 0) <;> rfl

/-- The value of the flow to a vertex of the support graph is the capacity of the cut, and no cut is smaller. -/
theorem flow_value {q : Int} (hq : 0 < q) (hx : ∀ e < g.edges.length, 0 ≤ x e) (hal : Aligned g order x rc) {flow : MaxFlow} (hflow : FlowSpec flow)
    {visit : Visit} (hvisit : VisitSpec visit) {ne : List (Nat × Nat)} {des : List ((Nat × Nat) × Int)}
    (hne : List.Forall₂ (Names (keptVertices g order x rc)) ((keptEdges g order x rc).map (endsOf g)) ne)
    (hdes : capacityEdges ne (getCapacityVectorFromSol g order q x) = .ok des) {sr t v : Nat}
    (hsr : (keptVertices g order x rc)[sr]? = some root) (ht : (keptVertices g order x rc)[t]? = some v) (htr : v ≠ root) :
    (flow des sr t).value = keptCut g (keptEdges g order x rc) (fun e => capacityOf q (x e)) (cutSet flow visit des sr (keptVertices g order x rc) t) ∧
      cutSet flow visit des sr (keptVertices g order x rc) t root = false ∧ cutSet flow visit des sr (keptVertices g order x rc) t v = true ∧
      ∀ T : Nat → Bool, T root = false → T v = true →
        (flow des sr t).value ≤ keptCut g (keptEdges g order x rc) (fun e => capacityOf q (x e)) T := by
  set D := keptVertices g order x rc with hDdef
  have hD : D.Nodup := firstSeen_nodup _
  obtain ⟨hpair, -⟩ := capacityEdges_paired _ _ _ hdes
  have hcap : ∀ c ∈ getCapacityVectorFromSol g order q x, 0 ≤ c := by
    intro c hc
    rw [getCapacityVectorFromSol, List.mem_map] at hc
    obtain ⟨e, he, rfl⟩ := hc
    rw [capacityOf_eq hq]
    have := hx e (mem_solutionEdges.1 he).2.1
    exact Int.ediv_nonneg (Int.mul_nonneg (by decide) this) (by omega)
  have hst : sr ≠ t := by rintro rfl; rw [hsr] at ht; simp at ht; exact htr ht.symm
  have hmf := hflow _ _ _ hdes hcap sr t hst
  have hsum : ∀ (S : Nat → Bool) (T : Nat → Bool), (∀ k < D.length, S k = T (D.getD k 0)) →
      cutCapacity des S = keptCut g (keptEdges g order x rc) (fun e => capacityOf q (x e)) T := by
    intro S T hST
    rw [cutCapacity_capacityEdges _ _ _ hdes, ← cutCapacity_kept hne, aligned_capacities hal (by rw [← hne.length_eq, List.length_map])]
    congr 1
    refine List.map_congr_left fun p hp => ?_
    have hp1 := (List.of_mem_zip hp).1
    obtain ⟨i, hi⟩ := List.mem_iff_getElem?.1 hp1
    obtain ⟨e', -, hn⟩ := (forall₂_getElem? hne).2 _ hi
    rw [hST _ (List.getElem?_eq_some_iff.1 hn.1).1, hST _ (List.getElem?_eq_some_iff.1 hn.2).1]
  obtain ⟨k1, k2, k3⟩ := hmf.eq_cut hpair hvisit
  have hset : ∀ (k w : Nat), D[k]? = some w → cutSet flow visit des sr D t w = !visit (positiveEdges des (flow des sr t).residual) sr k := by
    intro k w hk
    have hklt := (List.getElem?_eq_some_iff.1 hk).1
    rw [cutSet, Bool.eq_iff_iff, decide_eq_true_eq, mem_map_getD hD ?_ hk, getUnreachableVertices, List.mem_filter]
    · simp [hklt]
    · intro u hu; rw [getUnreachableVertices, List.mem_filter, List.mem_range] at hu; omega
  refine ⟨?_, ?_, ?_, ?_⟩
  · rw [k3]
    refine hsum _ _ fun k hk => ?_
    rw [hset k _ (by simp [hk])]
  · rw [hset sr root hsr, k1]; rfl
  · rw [hset t v ht, k2]; rfl
  · intro T h1 h2
    rw [← hsum (fun k => T (D.getD k 0)) T (fun k _ => rfl)]
    refine hmf.le_cut hpair _ ?_ ?_
    · simp [hsr, h1]
    · simp [ht, h2]

end Round

end Pctsp
