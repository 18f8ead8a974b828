import Verif.Spec.Repeats
import Verif.Lemmas.Renaming
import Verif.Lemmas.VertexNames
import Verif.Lemmas.Sort
import Verif.Lemmas.Gain
import Verif.Lemmas.Collapse

/-! Helper lemmas: the heuristics on graphs in which edges are listed several times. -/

namespace Pctsp

/-! ### First occurrences -/

section
variable {β γ : Type} [DecidableEq β] [DecidableEq γ]

/-- The first occurrences of the elements that are not in `seen`. -/
def newFrom (seen : List β) : List β → List β
  | [] => []
  | x :: l => if x ∈ seen then newFrom seen l else x :: newFrom (x :: seen) l

theorem newFrom_congr {S T : List β} (h : ∀ x, x ∈ S ↔ x ∈ T) (l : List β) : newFrom S l = newFrom T l := by
  induction l generalizing S T with
  | nil => rfl
  | cons x l ih =>
    rw [newFrom, newFrom]
    by_cases hx : x ∈ S
    · rw [if_pos hx, if_pos ((h x).1 hx), ih h]
    · rw [if_neg hx, if_neg (fun hc => hx ((h x).2 hc)), ih (S := x :: S) (T := x :: T) fun y => by simp only [List.mem_cons, h y]]

theorem mem_newFrom {S l : List β} {x : β} : x ∈ newFrom S l ↔ x ∈ l ∧ x ∉ S := by
  induction l generalizing S with
  | nil => simp [newFrom]
  | cons y l ih =>
    rw [newFrom]
    by_cases hy : y ∈ S
    · rw [if_pos hy, ih, List.mem_cons]
      constructor
      · rintro ⟨h1, h2⟩; exact ⟨Or.inr h1, h2⟩
      · rintro ⟨rfl | h1, h2⟩
        · exact absurd hy h2
        · exact ⟨h1, h2⟩
    · rw [if_neg hy, List.mem_cons, ih, List.mem_cons, List.mem_cons]
      constructor
      · rintro (rfl | ⟨h1, h2⟩)
        · exact ⟨Or.inl rfl, hy⟩
        · exact ⟨Or.inr h1, fun h => h2 (Or.inr h)⟩
      · rintro ⟨h1, h2⟩
        by_cases hxy : x = y
        · exact Or.inl hxy
        · rcases h1 with h1 | h1
          · exact absurd h1 hxy
          · exact Or.inr ⟨h1, fun h => h.elim hxy h2⟩

theorem newFrom_sublist (S l : List β) : (newFrom S l).Sublist l := by
  induction l generalizing S with
  | nil => exact List.Sublist.refl _
  | cons x l ih =>
    rw [newFrom]
    split
    · exact (ih S).cons x
    · exact (ih _).cons_cons x

theorem newFrom_nodup (S l : List β) : (newFrom S l).Nodup := by
  induction l generalizing S with
  | nil => exact List.nodup_nil
  | cons x l ih =>
    rw [newFrom]
    split
    · exact ih S
    · exact List.nodup_cons.2 ⟨fun h => (mem_newFrom.1 h).2 (by simp), ih _⟩

theorem newFrom_append (S A B : List β) : newFrom S (A ++ B) = newFrom S A ++ newFrom (A ++ S) B := by
  induction A generalizing S with
  | nil => rfl
  | cons x A ih =>
    rw [List.cons_append, newFrom, newFrom]
    by_cases hx : x ∈ S
    · rw [if_pos hx, if_pos hx, ih]
      congr 1
      refine newFrom_congr (fun y => ?_) B
      simp only [List.mem_append, List.cons_append, List.mem_cons]
      constructor
      · tauto
      · rintro (rfl | h | h) <;> tauto
    · rw [if_neg hx, if_neg hx, ih, List.cons_append]
      congr 2
      refine newFrom_congr (fun y => ?_) B
      simp only [List.mem_append, List.cons_append, List.mem_cons]
      tauto

theorem newFrom_known {S A : List β} (h : ∀ x ∈ A, x ∈ S) : newFrom S A = [] := by
  rw [List.eq_nil_iff_forall_not_mem]
  exact fun x hx => (mem_newFrom.1 hx).2 (h x (mem_newFrom.1 hx).1)

theorem newFrom_filterMap (f : β → Option γ) (l : List β) (S : List γ) (T : List β) (h : ∀ t ∈ T, ∀ y, f t = some y → y ∈ S) :
    newFrom S ((newFrom T l).filterMap f) = newFrom S (l.filterMap f) := by
  induction l generalizing S T with
  | nil => rfl
  | cons x l ih =>
    rw [newFrom, List.filterMap_cons]
    by_cases hx : x ∈ T
    · rw [if_pos hx, ih S T h]
      cases hf : f x with
      | none => rfl
      | some y => simp only [newFrom]; rw [if_pos (h x hx y hf)]
    · rw [if_neg hx, List.filterMap_cons]
      cases hf : f x with
      | none =>
        refine ih S (x :: T) fun t ht y hy => ?_
        rcases List.mem_cons.1 ht with rfl | ht
        · rw [hf] at hy; cases hy
        · exact h t ht y hy
      | some y =>
        simp only [newFrom]
        split
        · rename_i hy
          refine ih S (x :: T) fun t ht z hz => ?_
          rcases List.mem_cons.1 ht with rfl | ht
          · rw [hf] at hz; cases hz; exact hy
          · exact h t ht z hz
        · congr 1
          refine ih (y :: S) (x :: T) fun t ht z hz => ?_
          rcases List.mem_cons.1 ht with rfl | ht
          · rw [hf] at hz; cases hz; simp
          · exact List.mem_cons_of_mem _ (h t ht z hz)

/-- The same elements in the same order of their first occurrences. -/
def SameNew (l m : List β) : Prop := newFrom [] l = newFrom [] m

theorem SameNew.filterMap {l m : List β} (h : SameNew l m) (f : β → Option γ) : SameNew (l.filterMap f) (m.filterMap f) := by
  rw [SameNew, ← newFrom_filterMap f l [] [] (by simp), ← newFrom_filterMap f m [] [] (by simp), h]

theorem SameNew.filter {l m : List β} (h : SameNew l m) (p : β → Bool) : SameNew (l.filter p) (m.filter p) := by
  have := h.filterMap fun x => if p x = true then some x else none
  have e : ∀ l : List β, (l.filterMap fun x => if p x = true then some x else none) = l.filter p := by
    intro l
    induction l with
    | nil => rfl
    | cons x l ih => rw [List.filterMap_cons, List.filter_cons, ih]; cases p x <;> simp
  rwa [e, e] at this

theorem SameNew.map {l m : List β} (h : SameNew l m) (f : β → γ) : SameNew (l.map f) (m.map f) := by
  have := h.filterMap fun x => some (f x)
  have e : ∀ l : List β, (l.filterMap fun x => some (f x)) = l.map f := by
    intro l
    induction l with
    | nil => rfl
    | cons x l ih => rw [List.filterMap_cons, List.map_cons, ih]
  rwa [e, e] at this

theorem SameNew.mem {l m : List β} (h : SameNew l m) (x : β) : x ∈ l ↔ x ∈ m := by
  have h1 := mem_newFrom (S := []) (l := l) (x := x)
  rw [h, mem_newFrom] at h1
  simpa using h1.symm

end

theorem sameNew_of_sorted {l m : List Nat} (hl : l.Pairwise (· ≤ ·)) (hm : m.Pairwise (· ≤ ·)) (h : ∀ x, x ∈ l ↔ x ∈ m) : SameNew l m := by
  refine List.Perm.eq_of_pairwise (le := (· ≤ ·)) (fun a b _ _ h1 h2 => le_antisymm h1 h2) (hl.sublist (newFrom_sublist _ _)) (hm.sublist (newFrom_sublist _ _)) ?_
  rw [List.perm_ext_iff_of_nodup (newFrom_nodup _ _) (newFrom_nodup _ _)]
  intro x
  rw [mem_newFrom, mem_newFrom, h x]

/-! ### Graphs with the same first copies -/

/-- `h` has the vertices of `g`, and the same costs on the edges that `boost::edge` finds. -/
structure SameCosts (g : Graph) (cost : Nat → Int) (h : Graph) (cost' : Nat → Int) : Prop where
  wf : g.WF
  wf' : h.WF
  n : h.n = g.n
  cost : ∀ u v, (h.edgeIdx u v).map cost' = (g.edgeIdx u v).map cost

/-- Moreover `h` has the same neighbours in the same order of their first occurrences. -/
structure SameLinks (g : Graph) (cost : Nat → Int) (h : Graph) (cost' : Nat → Int) : Prop extends SameCosts g cost h cost' where
  adj : ∀ u, SameNew (h.adjacent u) (g.adjacent u)

variable {g h : Graph} {cost cost' : Nat → Int}

theorem SameCosts.edge (H : SameCosts g cost h cost') (u v : Nat) :
    (∃ w, h.edge u v = .ub w ∧ g.edge u v = .ub w) ∨ (h.edge u v = .ok none ∧ g.edge u v = .ok none) ∨
      ∃ e' e, h.edge u v = .ok (some e') ∧ g.edge u v = .ok (some e) ∧ cost' e' = cost e := by
  rw [Graph.edge, Graph.edge, H.n]
  by_cases hu : u < g.n
  · rw [if_pos hu, if_pos hu]
    have hc := H.cost u v
    cases h1 : h.edgeIdx u v with
    | none =>
      rw [h1] at hc
      cases h2 : g.edgeIdx u v with
      | none => exact Or.inr (Or.inl ⟨rfl, rfl⟩)
      | some e => rw [h2] at hc; cases hc
    | some e' =>
      rw [h1] at hc
      cases h2 : g.edgeIdx u v with
      | none => rw [h2] at hc; cases hc
      | some e => rw [h2] at hc; exact Or.inr (Or.inr ⟨e', e, rfl, rfl, Option.some.inj hc⟩)
  · rw [if_neg hu, if_neg hu]
    exact Or.inl ⟨_, rfl, rfl⟩

theorem SameCosts.edges (H : SameCosts g cost h cost') (w : List Nat) :
    (∃ x, getEdgesInWalk h w = .ub x ∧ getEdgesInWalk g w = .ub x) ∨ (∃ x, getEdgesInWalk h w = .throw x ∧ getEdgesInWalk g w = .throw x) ∨
      ∃ es' es, getEdgesInWalk h w = .ok es' ∧ getEdgesInWalk g w = .ok es ∧ es'.map cost' = es.map cost := by
  induction w with
  | nil => exact Or.inr (Or.inr ⟨[], [], rfl, rfl, rfl⟩)
  | cons u w ih =>
    cases w with
    | nil => exact Or.inr (Or.inr ⟨[], [], rfl, rfl, rfl⟩)
    | cons v rest =>
      rw [getEdgesInWalk, getEdgesInWalk]
      rcases H.edge u v with ⟨x, h1, h2⟩ | ⟨h1, h2⟩ | ⟨e', e, h1, h2, h3⟩
      · rw [h1, h2]; exact Or.inl ⟨x, rfl, rfl⟩
      · rw [h1, h2]; exact Or.inr (Or.inl ⟨_, rfl, rfl⟩)
      · rw [h1, h2]
        simp only [Res.ok_bind]
        rcases ih with ⟨x, k1, k2⟩ | ⟨x, k1, k2⟩ | ⟨es', es, k1, k2, k3⟩
        · rw [k1, k2]; exact Or.inl ⟨x, rfl, rfl⟩
        · rw [k1, k2]; exact Or.inr (Or.inl ⟨x, rfl, rfl⟩)
        · rw [k1, k2]
          exact Or.inr (Or.inr ⟨_, _, rfl, rfl, by rw [List.map_cons, List.map_cons, h3, k3]⟩)

theorem totalCostEdges_map (f : Nat → Int) (es : List Nat) : totalCostEdges f es = (es.map f).foldl (· + ·) 0 := by
  rw [totalCostEdges, List.foldl_map]

theorem SameCosts.totalCost (H : SameCosts g cost h cost') (w : List Nat) : totalCost h cost' w = totalCost g cost w := by
  rw [Pctsp.totalCost, Pctsp.totalCost]
  rcases H.edges w with ⟨x, h1, h2⟩ | ⟨x, h1, h2⟩ | ⟨es', es, h1, h2, h3⟩
  · rw [h1, h2]; rfl
  · rw [h1, h2]; rfl
  · rw [h1, h2]
    show Res.ok _ = Res.ok _
    rw [totalCostEdges_map, totalCostEdges_map, h3]

/-! ### The searches -/

theorem bfsVisit_newFrom (u : Nat) (l : List Nat) (S : List Nat) (st : BfsState) (hS : ∀ x ∈ S, st.marked x = true) :
    bfsVisit u (newFrom S l) st = bfsVisit u l st := by
  induction l generalizing S st with
  | nil => rfl
  | cons x l ih =>
    rw [newFrom]
    by_cases hx : x ∈ S
    · rw [if_pos hx, ih S st hS, bfsVisit, if_pos (hS x hx)]
    · rw [if_neg hx, bfsVisit, bfsVisit]
      by_cases hm : st.marked x = true
      · rw [if_pos hm, if_pos hm]
        exact ih _ _ fun y hy => by
          rcases List.mem_cons.1 hy with rfl | hy
          · exact hm
          · exact hS y hy
      · rw [if_neg hm, if_neg hm]
        refine ih _ _ fun y hy => ?_
        simp only [upd]
        split
        · rfl
        · rcases List.mem_cons.1 hy with rfl | hy
          · exact absurd rfl (by assumption)
          · exact hS y hy

theorem SameLinks.bfsVisit (H : SameLinks g cost h cost') (u : Nat) (st : BfsState) :
    bfsVisit u (h.adjacent u) st = bfsVisit u (g.adjacent u) st := by
  rw [← bfsVisit_newFrom u (h.adjacent u) [] st (by simp), H.adj u, bfsVisit_newFrom u (g.adjacent u) [] st (by simp)]

theorem SameLinks.bfsLoop (H : SameLinks g cost h cost') (limit : Int) (fuel : Nat) (lvl depth : Int) (st : BfsState) :
    bfsLoop h limit fuel lvl depth st = bfsLoop g limit fuel lvl depth st := by
  induction fuel generalizing lvl depth st with
  | zero => rfl
  | succ fuel ih =>
    rw [Pctsp.bfsLoop, Pctsp.bfsLoop]
    cases st.queue with
    | nil => rfl
    | cons u q => simp only [H.bfsVisit, ih]

theorem SameLinks.breadthFirstSearch (H : SameLinks g cost h cost') (s : Nat) (marked : Nat → Bool) (parent : Nat → Nat) (limit : Int) :
    breadthFirstSearch h s marked parent limit = breadthFirstSearch g s marked parent limit := by
  rw [Pctsp.breadthFirstSearch, Pctsp.breadthFirstSearch, H.n, H.bfsLoop]

theorem SameLinks.adjacentVertices (H : SameLinks g cost h cost') (u : Nat) :
    (∃ w, h.adjacentVertices u = .ub w ∧ g.adjacentVertices u = .ub w) ∨
      ∃ l' l, h.adjacentVertices u = .ok l' ∧ g.adjacentVertices u = .ok l ∧ SameNew l' l ∧ (∀ x ∈ l, x < g.n) := by
  rw [Graph.adjacentVertices, Graph.adjacentVertices, H.n]
  by_cases hu : u < g.n
  · rw [if_pos hu, if_pos hu]
    exact Or.inr ⟨_, _, rfl, rfl, H.adj u, fun x hx => (mem_adjacent.1 hx).lt_right H.wf⟩
  · rw [if_neg hu, if_neg hu]
    exact Or.inl ⟨_, rfl, rfl⟩

theorem SameCosts.mem_adj (H : SameCosts g cost h cost') (u x : Nat) : x ∈ h.adjacent u ↔ x ∈ g.adjacent u := by
  rw [mem_adjacent, mem_adjacent, ← edgeIdx_isSome_iff, ← edgeIdx_isSome_iff, ← Option.isSome_map (f := cost'), H.cost, Option.isSome_map]

theorem SameCosts.neighborIntersection (H : SameCosts g cost h cost') (u v : Nat) :
    (∃ w, neighborIntersection h u v = .ub w ∧ neighborIntersection g u v = .ub w) ∨
      ∃ l' l, neighborIntersection h u v = .ok l' ∧ neighborIntersection g u v = .ok l ∧ SameNew l' l := by
  by_cases hu : u < g.n
  · by_cases hv : v < g.n
    · obtain ⟨l', a1, a2, -, a3⟩ := neighborIntersection_spec (g := h) (u := u) (v := v) (by rw [H.n]; exact hu) (by rw [H.n]; exact hv)
      obtain ⟨l, b1, b2, -, b3⟩ := neighborIntersection_spec (g := g) hu hv
      refine Or.inr ⟨l', l, a1, b1, sameNew_of_sorted a2 b2 fun x => ?_⟩
      rw [a3, b3, ← mem_adjacent, ← mem_adjacent, ← mem_adjacent, ← mem_adjacent, H.mem_adj, H.mem_adj]
    · refine Or.inl ⟨"boost::adjacent_vertices: not a vertex", ?_, ?_⟩ <;>
        simp only [Pctsp.neighborIntersection, Graph.adjacentVertices, H.n, if_pos hu, if_neg hv] <;> rfl
  · refine Or.inl ⟨"boost::adjacent_vertices: not a vertex", ?_, ?_⟩ <;>
      simp only [Pctsp.neighborIntersection, Graph.adjacentVertices, H.n, if_neg hu] <;> rfl

end Pctsp
