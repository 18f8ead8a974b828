import Verif.Lemmas.RowsTour
import Verif.Lemmas.Dijkstra
import Verif.Spec.Paths

/-!
# Lemmas about cost cover rows
-/

namespace Pctsp

/-- Lists with the same images up to order can be aligned. -/
theorem perm_align {α β γ : Type} [DecidableEq α] (f : α → γ) (h : β → γ) (bs : List β) (as : List α) (hp : (as.map f).Perm (bs.map h)) :
    ∃ as', as'.Perm as ∧ List.Forall₂ (fun a b => f a = h b) as' bs := by
  induction bs generalizing as with
  | nil =>
    have : as = [] := by simpa using hp
    exact ⟨[], by rw [this], .nil⟩
  | cons b bs ih =>
    have hb : h b ∈ as.map f := hp.symm.subset (by simp)
    obtain ⟨a, ha, hab⟩ := List.mem_map.1 hb
    have h1 := List.perm_cons_erase ha
    have h2 : ((as.erase a).map f).Perm (bs.map h) := by
      have h3 := (h1.map f).symm.trans hp
      rw [List.map_cons, List.map_cons, hab] at h3
      exact (List.perm_cons _).1 h3
    obtain ⟨as', h4, h5⟩ := ih _ h2
    exact ⟨a :: as', (h4.cons a).trans h1.symm, .cons hab h5⟩

/-- The edges of an incidence vector, in the order of the tour. -/
theorem incidence_walkEdges {g : Graph} {t es : List Nat} {x : Nat → Int} (hinc : IncidenceOf g t es x) :
    ∃ es', es'.Perm es ∧ WalkEdges g es' t := by
  obtain ⟨ps, h1, h2⟩ := hinc.used
  obtain ⟨rfl, h3⟩ := forall₂_ends h1
  rw [List.map_map] at h2
  obtain ⟨es', h4, h5⟩ := perm_align _ _ _ _ h2
  refine ⟨es', h4, ?_⟩
  have h6 : ∀ e ∈ es', e < g.edges.length := fun e he => h3 e (h4.subset he)
  clear h4 h2 h1
  unfold WalkEdges
  generalize consec t = ps at h5
  induction h5 with
  | nil => exact .nil
  | @cons e p es' ps' hep _ ih =>
    refine .cons ?_ (ih fun e he => h6 e (by simp [he]))
    have he : g.edges[e]? = some (endsOf g e) := by simp [endsOf, h6 e (by simp)]
    obtain ⟨a, b⟩ := p
    rcases hend : endsOf g e with ⟨c, d⟩
    simp only [Function.comp, hend] at hep
    rw [hend] at he
    rw [und_eq_iff] at hep
    rcases hep with ⟨rfl, rfl⟩ | ⟨rfl, rfl⟩
    · exact Or.inl he
    · exact Or.inr he

/-- The edges of a walk, reversed. -/
theorem walkEdges_reverse {g : Graph} {es l : List Nat} (h : WalkEdges g es l) : WalkEdges g es.reverse l.reverse := by
  unfold WalkEdges at *
  rw [consec_reverse]
  rw [List.forall₂_reverse_iff, List.forall₂_map_right_iff]
  exact h.imp fun _ _ h => Or.symm h

/-- Splitting the edges of a walk. -/
theorem walkEdges_split {g : Graph} {es l m : List Nat} {v : Nat} (h : WalkEdges g es (l ++ v :: m)) :
    ∃ e1 e2, es = e1 ++ e2 ∧ WalkEdges g e1 (l ++ [v]) ∧ WalkEdges g e2 (v :: m) := by
  unfold WalkEdges at *
  rw [consec_append] at h
  refine ⟨es.take (consec (l ++ [v])).length, es.drop (consec (l ++ [v])).length, by simp, ?_, ?_⟩
  · exact List.forall₂_take_append _ _ _ h
  · exact List.forall₂_drop_append _ _ _ h

/-- A walk reaches its last vertex at the cost of its edges. -/
theorem walkEdges_reaches {g : Graph} {cost : Nat → Int} {s : Nat} (l : List Nat) (u v : Nat) (es : List Nat) (d : Int)
    (h : WalkEdges g es (u :: (l ++ [v]))) (hu : Reaches g cost (fun _ => false) s u d) :
    Reaches g cost (fun _ => false) s v (d + (es.map cost).sum) := by
  unfold WalkEdges at *
  induction l generalizing u es d with
  | nil =>
    simp only [List.nil_append, consec_cons_cons] at h
    cases h with
    | @cons e _ es' _ he h2 =>
      cases h2
      simpa using hu.step he rfl
  | cons w l ih =>
    simp only [List.cons_append, consec_cons_cons] at h
    cases h with
    | @cons e _ es' _ he h2 =>
      have := ih w es' _ h2 (hu.step he rfl)
      simpa [Int.add_assoc] using this

/-- A tour through a vertex other than the root is a pair of disjoint paths. -/
theorem tour_disjointPaths {g : Graph} {cost : Nat → Int} {root v : Nat} {t es : List Nat} {x : Nat → Int} (ht : IsTour g root t)
    (hinc : IncidenceOf g t es x) (hv : v ∈ t) (hne : v ≠ root) : DisjointPaths g cost root v ((es.map cost).sum) := by
  obtain ⟨m, rfl⟩ := ht.shape
  obtain ⟨es', hp, hw⟩ := incidence_walkEdges hinc
  have hvm : v ∈ m := by simpa [hne] using hv
  obtain ⟨a, b, rfl⟩ := List.append_of_mem hvm
  have hw' : WalkEdges g es' ((root :: a) ++ v :: (b ++ [root])) := by simpa using hw
  obtain ⟨e1, e2, rfl, h1, h2⟩ := walkEdges_split hw'
  have hnd := ht.nodup
  rw [dropLast_tour] at hnd
  refine ⟨a, b.reverse, e1, e2.reverse, ?_, ?_, by simpa using h1, ?_, ?_⟩
  · have hpm : (root :: (a ++ v :: b.reverse)).Perm (root :: (a ++ v :: b)) :=
      (List.Perm.append_left a ((List.reverse_perm b).cons v)).cons root
    exact hpm.nodup_iff.2 hnd
  · have hpm : (e1 ++ e2.reverse).Perm (e1 ++ e2) := List.Perm.append_left e1 (List.reverse_perm e2)
    exact (hpm.trans hp).nodup_iff.2 hinc.nodup
  · have := walkEdges_reverse h2
    simpa using this
  · have hpm : (e1 ++ e2.reverse).Perm (e1 ++ e2) := List.Perm.append_left e1 (List.reverse_perm e2)
    exact (sum_eq_of_perm ((hpm.trans hp).map cost)).symm

/-- Each of the two paths is at least as long as the shortest one. -/
theorem disjointPaths_ge {g : Graph} {cost : Nat → Int} {root v : Nat} {d d0 : Int} (h : DisjointPaths g cost root v d)
    (hd : ∀ d', Reaches g cost (fun _ => false) root v d' → d0 ≤ d') : 2 * d0 ≤ d := by
  obtain ⟨a, b, es, fs, -, -, h1, h2, rfl⟩ := h
  have h3 := hd _ (walkEdges_reaches a root v es 0 h1 .start)
  have h4 := hd _ (walkEdges_reaches b root v fs 0 h2 .start)
  rw [List.map_append, List.sum_append]
  omega

/-- The objective is at least the cost of the edges of the tour. -/
theorem objective_ge {g : Graph} {cost : Nat → Int} (hc : ∀ e < g.edges.length, 0 ≤ cost e) {root : Nat} {t es : List Nat} {x : Nat → Int}
    (ht : IsTour g root t) (hlen : 3 ≤ t.length) (hinc : IncidenceOf g t es x) : (es.map cost).sum ≤ objective g cost x := by
  obtain ⟨-, hlt, hne⟩ := incidence_nonloop ht hlen hinc
  have hx : ∀ e < g.edges.length, (if e ∈ es then cost e else 0) ≤ cost e * x e := by
    intro e he
    have hp : g.edges[e]? = some (endsOf g e) := by simp [endsOf, he]
    have hce := hc e he
    by_cases hloop : (endsOf g e).1 = (endsOf g e).2
    · have hes : e ∉ es := fun h => hne e h hloop
      have hp' : g.edges[e]? = some ((endsOf g e).1, (endsOf g e).1) := by rw [hp]; congr 1; exact Prod.ext rfl hloop.symm
      rw [if_neg hes, hinc.loop e _ hp']
      split <;> omega
    · rw [hinc.edge e _ _ hp hloop]
      split <;> omega
  have h1 : ((List.range g.edges.length).map fun e => if e ∈ es then cost e else 0).sum = (es.map cost).sum := by
    have h2 : ∀ l : List Nat, (l.map fun e => if e ∈ es then cost e else 0).sum = ((l.filter fun e => decide (e ∈ es)).map cost).sum := by
      intro l
      induction l with
      | nil => rfl
      | cons a l ih => by_cases h : a ∈ es <;> simp [h, ih]
    rw [h2]
    refine sum_eq_of_perm (List.Perm.map _ ?_)
    refine (List.perm_ext_iff_of_nodup (List.nodup_range.filter _) hinc.nodup).2 fun e => ?_
    simp only [List.mem_filter, List.mem_range, decide_eq_true_eq]
    exact ⟨fun h => h.2, fun h => ⟨hlt e h, h⟩⟩
  rw [← h1, objective]
  have h3 : ∀ l : List Nat, (∀ e ∈ l, e < g.edges.length) → (l.map fun e => if e ∈ es then cost e else 0).sum ≤ (l.map fun e => cost e * x e).sum := by
    intro l hl
    induction l with
    | nil => simp
    | cons a l ih =>
      have := ih fun e he => hl e (by simp [he])
      have := hx a (hl a (by simp))
      simp only [List.map_cons, List.sum_cons]
      omega
  exact h3 _ fun e he => List.mem_range.1 he

/-- The objective of a vector without negative entries is not negative. -/
theorem objective_nonneg {g : Graph} {cost : Nat → Int} (hc : ∀ e < g.edges.length, 0 ≤ cost e) {t es : List Nat} {x : Nat → Int}
    (hinc : IncidenceOf g t es x) : 0 ≤ objective g cost x := by
  have hx : ∀ e < g.edges.length, 0 ≤ cost e * x e := by
    intro e he
    have hp : g.edges[e]? = some (endsOf g e) := by simp [endsOf, he]
    have hce := hc e he
    by_cases hloop : (endsOf g e).1 = (endsOf g e).2
    · have hp' : g.edges[e]? = some ((endsOf g e).1, (endsOf g e).1) := by rw [hp]; congr 1; exact Prod.ext rfl hloop.symm
      rw [hinc.loop e _ hp']
      split <;> omega
    · rw [hinc.edge e _ _ hp hloop]
      split <;> omega
  rw [objective]
  have h3 : ∀ l : List Nat, (∀ e ∈ l, e < g.edges.length) → 0 ≤ (l.map fun e => cost e * x e).sum := by
    intro l hl
    induction l with
    | nil => simp
    | cons a l ih =>
      have := ih fun e he => hl e (by simp [he])
      have := hx a (hl a (by simp))
      simp only [List.map_cons, List.sum_cons]
      omega
  exact h3 _ fun e he => List.mem_range.1 he

/-- The cover row of two vertices. -/
theorem coverRow_two {g : Graph} (hl : ∀ v < g.n, (v, v) ∈ g.edges) {u v : Nat} (hu : u < g.n) (hv : v < g.n) :
    ∃ row, coverRowFromVertices g g.hasVar [u, v] = .ok row ∧ row.lhs = none ∧ row.rhs = some 1 ∧
      ∀ x, row.activity x = loopVal g x u + loopVal g x v := by
  obtain ⟨i, hi⟩ := Option.isSome_iff_exists.1 (edgeIdx_isSome_iff.2 (Or.inl (hl u hu) : Adj g u u))
  obtain ⟨j, hj⟩ := Option.isSome_iff_exists.1 (edgeIdx_isSome_iff.2 (Or.inl (hl v hv) : Adj g v v))
  have hloops : getSelfLoops g [u, v] = .ok [i, j] := getSelfLoops_ok.2 (.cons ⟨hu, hi⟩ (.cons ⟨hv, hj⟩ .nil))
  have hlt : ∀ a k, g.edgeIdx a a = some k → g.hasVar k = true := by
    intro a k hk
    have : k < g.edges.length := by rcases edgeIdx_eq_some hk with h | h <;> exact (List.getElem?_eq_some_iff.1 h).1
    simp [Graph.hasVar, this]
  have hvars : getEdgeVariables g.hasVar [i, j] = .ok [i, j] := getEdgeVariables_ok _ _ (by simp [hlt u i hi, hlt v j hj])
  refine ⟨coverRow [i, j], by simp [coverRowFromVertices, hloops, hvars, Res.pure_eq], rfl, rfl, fun x => ?_⟩
  simp [coverRow, Row.activity, loopVal, hi, hj]

end Pctsp
