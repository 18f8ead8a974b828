import Verif.Lemmas.RowsDegree
import Verif.Props.SimpleCycle

/-! # Lemmas about incidence vectors and the rows of the model -/

namespace Pctsp

/-- The end points of an edge. -/
def endsOf (g : Graph) (e : Nat) : Nat × Nat := (g.edges[e]?).getD (0, 0)

theorem forall₂_ends {g : Graph} {es : List Nat} {ps : List (Nat × Nat)} (h : List.Forall₂ (fun e p => g.edges[e]? = some p) es ps) :
    ps = es.map (endsOf g) ∧ ∀ e ∈ es, e < g.edges.length := by
  induction h with
  | nil => simp
  | cons h _ ih =>
    refine ⟨by simp [← ih.1, endsOf, h], ?_⟩
    intro e he
    rcases List.mem_cons.1 he with rfl | he
    · exact (List.getElem?_eq_some_iff.1 h).1
    · exact ih.2 e he

theorem ends_forall₂ {g : Graph} {es : List Nat} (h : ∀ e ∈ es, e < g.edges.length) :
    List.Forall₂ (fun e p => g.edges[e]? = some p) es (es.map (endsOf g)) := by
  induction es with
  | nil => exact .nil
  | cons e es ih =>
    refine .cons ?_ (ih fun e he => h e (by simp [he]))
    have := h e (by simp)
    simp [endsOf, this]

/-- A form of `IncidenceOf` that can be checked for concrete graphs. -/
theorem incidence_check {g : Graph} {t es : List Nat} {x : Nat → Int} (h1 : ∀ e ∈ es, e < g.edges.length)
    (h2 : ((es.map (endsOf g)).map und).Perm ((consec t).map und)) (h3 : es.Nodup)
    (h4 : ∀ e ∈ List.range g.edges.length, x e =
      if (endsOf g e).1 = (endsOf g e).2 then (if (endsOf g e).1 ∈ t then 1 else 0) else (if e ∈ es then 1 else 0)) : IncidenceOf g t es x := by
  refine ⟨⟨_, ends_forall₂ h1, h2⟩, h3, ?_, ?_⟩
  · intro e u v he huv
    have := h4 e (List.mem_range.2 (List.getElem?_eq_some_iff.1 he).1)
    rw [endsOf, he] at this
    simpa [huv] using this
  · intro e v he
    have := h4 e (List.mem_range.2 (List.getElem?_eq_some_iff.1 he).1)
    rw [endsOf, he] at this
    simpa using this

theorem degreeIn_countP {ps : List (Nat × Nat)} (h : ∀ p ∈ ps, p.1 ≠ p.2) (v : Nat) :
    degreeIn ps v = ps.countP fun p => p.1 == v || p.2 == v := by
  induction ps with
  | nil => rfl
  | cons p ps ih =>
    have h1 := ih fun p hp => h p (by simp [hp])
    have h2 := h p (by simp)
    unfold degreeIn at h1 ⊢
    rw [List.map_cons, List.sum_cons, h1, List.countP_cons]
    by_cases ha : p.1 = v <;> by_cases hb : p.2 = v
    · omega
    · simp [ha, hb]; omega
    · simp [ha, hb]; omega
    · simp [ha, hb]

/-- For a vector that marks a set of edges, the value at a vertex is the degree in the set. -/
theorem edgeSum_incident {g : Graph} {es : List Nat} {x : Nat → Int} (hnd : es.Nodup) (hlt : ∀ e ∈ es, e < g.edges.length)
    (hne : ∀ e ∈ es, (endsOf g e).1 ≠ (endsOf g e).2)
    (hx : ∀ e u v, g.edges[e]? = some (u, v) → u ≠ v → x e = if e ∈ es then 1 else 0) (v : Nat) :
    edgeSum g x (incident g v) = (degreeIn (es.map (endsOf g)) v : Int) := by
  rw [edgeSum, sum_indicator _ x (fun e => e ∈ es), degreeIn_countP]
  · congr 1
    rw [countP_mem_swap (List.nodup_range.filter _) hnd, List.countP_map]
    refine List.countP_congr fun e he => ?_
    have h1 := hlt e he
    have h2 := hne e he
    simp only [endsOf, List.getElem?_eq_getElem h1, Option.getD_some] at h2
    simp [h1, incident, endsOf, h2]
  · intro p hp
    obtain ⟨e, he, rfl⟩ := List.mem_map.1 hp
    exact hne e he
  · intro e he
    obtain ⟨h1, h2⟩ := List.mem_filter.1 he
    have hlt := List.mem_range.1 h1
    have hp : g.edges[e]? = some g.edges[e] := List.getElem?_eq_getElem hlt
    simp only [incident, hp, Bool.and_eq_true, decide_eq_true_eq] at h2
    exact hx e _ _ hp h2.1

theorem incidence_nonloop {g : Graph} {r : Nat} {t es : List Nat} {x : Nat → Int} (ht : IsTour g r t) (hlen : 3 ≤ t.length)
    (hinc : IncidenceOf g t es x) : ((es.map (endsOf g)).map und).Perm ((consec t).map und) ∧ (∀ e ∈ es, e < g.edges.length) ∧
      ∀ e ∈ es, (endsOf g e).1 ≠ (endsOf g e).2 := by
  obtain ⟨ps, h1, h2⟩ := hinc.used
  obtain ⟨rfl, h3⟩ := forall₂_ends h1
  refine ⟨h2, h3, ?_⟩
  intro e he heq
  obtain ⟨m, rfl⟩ := ht.shape
  have hnd := ht.nodup
  rw [dropLast_tour] at hnd
  have hm : m ≠ [] := by rintro rfl; simp at hlen
  have : und (endsOf g e) ∈ (consec (r :: (m ++ [r]))).map und := h2.mem_iff.1 (List.mem_map_of_mem (List.mem_map_of_mem he))
  obtain ⟨⟨a, b⟩, hab, hu⟩ := List.mem_map.1 this
  have hne := cycle_no_loop hnd hm _ hab
  rcases hee : endsOf g e with ⟨c, d⟩
  rw [hee] at heq hu
  rw [und_eq_iff] at hu
  simp only at heq hne
  omega

/-- Every vertex of the tour has degree two, the others have degree zero. -/
theorem incidence_degree {g : Graph} {r : Nat} {t es : List Nat} {x : Nat → Int} (ht : IsTour g r t) (hlen : 3 ≤ t.length)
    (hinc : IncidenceOf g t es x) (v : Nat) : edgeSum g x (incident g v) = if v ∈ t then 2 else 0 := by
  obtain ⟨h1, h2, h3⟩ := incidence_nonloop ht hlen hinc
  rw [edgeSum_incident hinc.nodup h2 h3 hinc.edge, ← adjOf_length, (adjOf_perm h1 v).length_eq]
  obtain ⟨m, rfl⟩ := ht.shape
  have hnd := ht.nodup
  rw [dropLast_tour] at hnd
  have hm : m ≠ [] := by rintro rfl; simp at hlen
  rw [adjOf_cycle_length hnd hm]
  have : v ∈ r :: (m ++ [r]) ↔ v ∈ r :: m := by simp; tauto
  simp only [this]
  split <;> rfl

/-! ### The prize row -/

theorem sum_map_mul {α : Type} (l : List α) (c : Int) (f : α → Int) : (l.map fun a => c * f a).sum = c * (l.map f).sum := by
  induction l with
  | nil => simp
  | cons a l ih => simp [ih, Int.mul_add]

/-- The activity of the prize row is minus the prize of the chosen vertices. -/
theorem prizeRow_activity {g : Graph} (hg : SimpleWithLoops g) (prize : Nat → Int) (quota : Int) (x : Nat → Int) :
    (prizeRow g (putPrizeOntoEdgeWeights g prize) quota).activity x = - ((List.range g.n).map fun v => prize v * loopVal g x v).sum := by
  have h1 : ∀ e ∈ List.range g.edges.length, -(putPrizeOntoEdgeWeights g prize e) * x e =
      ((List.range g.n).map fun v => if (g.edgeIdx v v).getD g.edges.length = e then - (prize v * loopVal g x v) else 0).sum := by
    intro e he
    have hlt := List.mem_range.1 he
    have hp : g.edges[e]? = some g.edges[e] := List.getElem?_eq_getElem hlt
    rcases hpe : g.edges[e] with ⟨a, b⟩
    rw [hpe] at hp
    rw [putPrize_eq g prize hp]
    by_cases hab : a = b
    · subst hab
      have hidx := hg.edgeIdx (Or.inl hp)
      rw [if_pos ⟨rfl, hidx⟩]
      have hlta : a < g.n := (hg.wf _ (List.mem_of_getElem? hp)).1
      have : ((List.range g.n).map fun v => if (g.edgeIdx v v).getD g.edges.length = e then - (prize v * loopVal g x v) else 0) =
          (List.range g.n).map fun v => if a = v then - (prize a * x e) else 0 := by
        refine List.map_congr_left fun v hv => ?_
        obtain ⟨i, hi⟩ := Option.isSome_iff_exists.1 (edgeIdx_isSome_iff.2 (Or.inl (hg.loops v (List.mem_range.1 hv)) : Adj g v v))
        by_cases hav : a = v
        · subst hav
          simp [hidx, loopVal]
        · rw [if_neg hav, if_neg]
          rw [hi, Option.getD_some]
          rintro rfl
          rcases edgeIdx_eq_some hi with h | h <;> rw [hp] at h <;> simp at h <;> omega
      rw [this, sum_ite_eq List.nodup_range, if_pos (List.mem_range.2 hlta)]
      simp
    · rw [if_neg (fun h => hab h.1)]
      have : ((List.range g.n).map fun v => if (g.edgeIdx v v).getD g.edges.length = e then - (prize v * loopVal g x v) else 0) =
          (List.range g.n).map fun v => (0 : Int) * 0 := by
        refine List.map_congr_left fun v hv => ?_
        obtain ⟨i, hi⟩ := Option.isSome_iff_exists.1 (edgeIdx_isSome_iff.2 (Or.inl (hg.loops v (List.mem_range.1 hv)) : Adj g v v))
        rw [if_neg]
        · rfl
        · rw [hi, Option.getD_some]
          rintro rfl
          rcases edgeIdx_eq_some hi with h | h <;> rw [hp] at h <;> simp at h <;> omega
      rw [this, sum_map_mul]
      simp
  have h2 : (prizeRow g (putPrizeOntoEdgeWeights g prize) quota).activity x =
      ((List.range g.edges.length).map fun e => ((List.range g.n).map fun v =>
        if (g.edgeIdx v v).getD g.edges.length = e then - (prize v * loopVal g x v) else 0).sum).sum := by
    rw [Row.activity, prizeRow, List.map_map]
    congr 1
    exact List.map_congr_left h1
  rw [h2, sum_swap]
  have h3 : ((List.range g.n).map fun v => ((List.range g.edges.length).map fun e =>
      if (g.edgeIdx v v).getD g.edges.length = e then - (prize v * loopVal g x v) else 0).sum) =
      (List.range g.n).map fun v => (-1) * (prize v * loopVal g x v) := by
    refine List.map_congr_left fun v hv => ?_
    obtain ⟨i, hi⟩ := Option.isSome_iff_exists.1 (edgeIdx_isSome_iff.2 (Or.inl (hg.loops v (List.mem_range.1 hv)) : Adj g v v))
    rw [sum_ite_eq List.nodup_range, if_pos]
    · omega
    · rw [hi, Option.getD_some, List.mem_range]
      rcases edgeIdx_eq_some hi with h | h <;> exact (List.getElem?_eq_some_iff.1 h).1
  rw [h3, sum_map_mul]
  omega

/-- The prize of the marked vertices. -/
theorem sum_prize_mem {n : Nat} {vs : List Nat} (hnd : vs.Nodup) (hr : ∀ v ∈ vs, v < n) (prize : Nat → Int) :
    ((List.range n).map fun v => prize v * (if v ∈ vs then 1 else 0)).sum = prizeSum prize vs := by
  have hp : ((List.range n).filter fun v => decide (v ∈ vs)).Perm vs := by
    rw [List.perm_ext_iff_of_nodup (List.nodup_range.filter _) hnd]
    intro v
    simp only [List.mem_filter, List.mem_range, decide_eq_true_eq]
    exact ⟨fun h => h.2, fun h => ⟨hr v h, h⟩⟩
  rw [prizeSum, ← sum_eq_of_perm (hp.map prize)]
  induction List.range n with
  | nil => rfl
  | cons v l ih =>
    rw [List.map_cons, List.sum_cons, ih, List.filter_cons]
    by_cases h : v ∈ vs <;> simp [h]

/-- All rows of the model, for a simple graph. -/
theorem modelRows_sat {g : Graph} (hg : SimpleWithLoops g) (prize : Nat → Int) (quota : Int) {root : Nat} (hroot : root < g.n) (x : Nat → Int) :
    ∃ rows, modelWithoutSECs g prize quota root = .ok rows ∧ ((∀ row ∈ rows, row.Sat x) ↔
      quota ≤ ((List.range g.n).map fun v => prize v * loopVal g x v).sum ∧ loopVal g x root = 1 ∧
      ∀ v < g.n, edgeSum g x (incident g v) = 2 * loopVal g x v) := by
  obtain ⟨loop, hl⟩ := Option.isSome_iff_exists.1 (edgeIdx_isSome_iff.2 (Or.inl (hg.loops root hroot) : Adj g root root))
  obtain ⟨rows, h1, h2⟩ := degreeRows_sat hg x
  refine ⟨_, by simp only [modelWithoutSECs, Graph.edge, if_pos hroot, hl, Res.ok_bind, h1, Res.pure_eq]; rfl, ?_⟩
  simp only [List.mem_cons, forall_eq_or_imp, h2]
  refine and_congr ?_ (and_congr ?_ Iff.rfl)
  · rw [Row.Sat, prizeRow_activity hg]
    simp only [prizeRow, reduceCtorEq, Option.some.injEq, forall_eq', false_imp_iff, implies_true, true_and]
    omega
  · rw [Row.Sat, Row.activity]
    simp only [rootRow, Option.some.injEq, forall_eq', List.map_cons, List.map_nil, List.sum_cons, List.sum_nil, loopVal, hl, Option.getD_some]
    omega

theorem mem_getSolutionEdges {g : Graph} {order : List Nat} (ho : order.Perm (List.range g.edges.length)) {pos : Nat → Bool} {e : Nat} :
    e ∈ getSolutionEdges g order pos ↔ ∃ u v, g.edges[e]? = some (u, v) ∧ u ≠ v ∧ pos e = true := by
  rw [getSolutionEdges, List.mem_filter, ho.mem_iff, List.mem_range]
  constructor
  · rintro ⟨hlt, h⟩
    have hp : g.edges[e]? = some g.edges[e] := List.getElem?_eq_getElem hlt
    rw [hp] at h
    simp only [Bool.and_eq_true, decide_eq_true_eq] at h
    exact ⟨_, _, hp, h⟩
  · rintro ⟨u, v, hp, huv, hpos⟩
    exact ⟨(List.getElem?_eq_some_iff.1 hp).1, by simp [hp, huv, hpos]⟩

theorem getSolutionEdges_nodup {g : Graph} {order : List Nat} (ho : order.Perm (List.range g.edges.length)) (pos : Nat → Bool) :
    (getSolutionEdges g order pos).Nodup := (ho.nodup_iff.2 List.nodup_range).filter _

theorem getSelfLoops_missing {g : Graph} (vs : List Nat) (hr : ∀ v ∈ vs, v < g.n) (h : ∃ v ∈ vs, (v, v) ∉ g.edges) :
    ∃ v ∈ vs, (v, v) ∉ g.edges ∧ getSelfLoops g vs = .throw (.noSelfLoopFound v) := by
  have key : ∀ pre post, vs = pre ++ post → (∀ u ∈ pre, (u, u) ∈ g.edges) →
      ∃ v ∈ vs, (v, v) ∉ g.edges ∧ getSelfLoops g vs = .throw (.noSelfLoopFound v) := by
    intro pre post
    induction post generalizing pre with
    | nil =>
      intro h1 h2
      obtain ⟨v, hv, hv'⟩ := h
      rw [h1, List.append_nil] at hv
      exact absurd (h2 v hv) hv'
    | cons w post ih =>
      intro h1 h2
      by_cases hw : (w, w) ∈ g.edges
      · refine ih (pre ++ [w]) (by simp [h1]) ?_
        intro u hu
        rcases List.mem_append.1 hu with hu | hu
        · exact h2 u hu
        · simp at hu; subst hu; exact hw
      · refine ⟨w, by simp [h1], hw, ?_⟩
        rw [h1]
        refine getSelfLoops_throw pre w post (fun u hu => ⟨hr u (by simp [h1, hu]), Or.inl (h2 u hu)⟩) (hr w (by simp [h1])) ?_
        rintro (h | h) <;> exact hw h
  exact key [] vs rfl (by simp)

/-- In a simple graph the tour of an incidence vector has at least three vertices. -/
theorem incidence_length {g : Graph} (hg : SimpleWithLoops g) {r : Nat} {t es : List Nat} {x : Nat → Int} (ht : IsTour g r t) (hlen : 3 ≤ t.length)
    (hinc : IncidenceOf g t es x) : 4 ≤ t.length := by
  obtain ⟨h1, h2, h3⟩ := incidence_nonloop ht hlen hinc
  obtain ⟨m, rfl⟩ := ht.shape
  match m, hlen with
  | [a], _ =>
    exfalso
    have hl := h1.length_eq
    match es, hl, hinc.nodup, h1, h2 with
    | [e, f], _, hnd, h1, h2 =>
      have he : und (endsOf g e) = und (r, a) := by
        have := h1.mem_iff.1 (List.mem_map_of_mem (List.mem_map_of_mem (a := e) (by simp)))
        simp only [List.cons_append, List.nil_append, consec, List.zip, List.tail, List.zipWith, List.map, List.mem_cons, List.not_mem_nil, or_false] at this
        rcases this with h | h
        · exact h
        · rw [h, und_eq_iff]; omega
      have hf : und (endsOf g f) = und (r, a) := by
        have := h1.mem_iff.1 (List.mem_map_of_mem (List.mem_map_of_mem (a := f) (by simp)))
        simp only [List.cons_append, List.nil_append, consec, List.zip, List.tail, List.zipWith, List.map, List.mem_cons, List.not_mem_nil, or_false] at this
        rcases this with h | h
        · exact h
        · rw [h, und_eq_iff]; omega
      have hee : g.edges[e]? = some (endsOf g e) := by have := h2 e (by simp); simp [endsOf, this]
      have hff : g.edges[f]? = some (endsOf g f) := by have := h2 f (by simp); simp [endsOf, this]
      have := hg.idx_unique hee hff (he.trans hf.symm)
      simp [this] at hnd
  | a :: b :: m, _ => simp

end Pctsp
