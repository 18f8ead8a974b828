import Verif.Model.Walk
import Verif.Spec.Tour
import Mathlib.Data.List.Rotate

/-! Helper lemmas about walks, costs and prizes. -/

namespace Pctsp

section consec
variable {α : Type}

@[simp] theorem consec_nil : consec ([] : List α) = [] := rfl
@[simp] theorem consec_singleton (a : α) : consec [a] = [] := rfl
@[simp] theorem consec_cons_cons (a b : α) (l : List α) : consec (a :: b :: l) = (a, b) :: consec (b :: l) := rfl

theorem consec_length (l : List α) : (consec l).length = l.length - 1 := by
  simp [consec]

theorem consec_append (l : List α) (a : α) (m : List α) :
    consec (l ++ a :: m) = consec (l ++ [a]) ++ consec (a :: m) := by
  induction l with
  | nil => simp
  | cons b l ih => cases l with
    | nil => simp
    | cons c l => simpa using ih

theorem consec_map {β : Type} (f : α → β) (l : List α) :
    consec (l.map f) = (consec l).map (fun p => (f p.1, f p.2)) := by
  induction l with
  | nil => rfl
  | cons a l ih => cases l with
    | nil => rfl
    | cons b l => simpa using ih

theorem mem_of_mem_consec {l : List α} {p : α × α} (h : p ∈ consec l) : p.1 ∈ l ∧ p.2 ∈ l := by
  have := List.of_mem_zip (a := p.1) (b := p.2) h
  exact ⟨this.1, List.mem_of_mem_tail this.2⟩

theorem consec_reverse (l : List α) : consec l.reverse = ((consec l).map Prod.swap).reverse := by
  induction l with
  | nil => rfl
  | cons a l ih => cases l with
    | nil => rfl
    | cons b l =>
      simp only [List.reverse_cons, consec_cons_cons, List.map_cons, List.append_assoc, List.cons_append,
        List.nil_append] at ih ⊢
      rw [consec_append, ← ih]
      simp

theorem consec_eq_getElem {l : List α} {p : α × α} :
    p ∈ consec l ↔ ∃ i, ∃ h : i + 1 < l.length, l[i] = p.1 ∧ l[i+1] = p.2 := by
  induction l with
  | nil => simp
  | cons a l ih => cases l with
    | nil => simp
    | cons b l =>
      simp only [consec_cons_cons, List.mem_cons, ih]
      constructor
      · rintro (rfl | ⟨i, h, h1, h2⟩)
        · exact ⟨0, by simp, rfl, rfl⟩
        · exact ⟨i + 1, by simpa using h, by simpa using h1, by simpa using h2⟩
      · rintro ⟨i, h, h1, h2⟩
        cases i with
        | zero => left; exact Prod.ext h1.symm h2.symm
        | succ i => right; exact ⟨i, by simpa using h, by simpa using h1, by simpa using h2⟩

end consec

theorem Adj.symm {g : Graph} {u v : Nat} (h : Adj g u v) : Adj g v u := h.elim Or.inr Or.inl

theorem Adj.lt_left {g : Graph} (hg : g.WF) {u v : Nat} (h : Adj g u v) : u < g.n := by
  rcases h with h | h
  · exact (hg _ h).1
  · exact (hg _ h).2

theorem Adj.lt_right {g : Graph} (hg : g.WF) {u v : Nat} (h : Adj g u v) : v < g.n := h.symm.lt_left hg

theorem joins_iff {u v : Nat} {e : Nat × Nat} : joins u v e = true ↔ e = (u, v) ∨ e = (v, u) := by
  simp [joins, Prod.ext_iff]

theorem joins_eq (u v : Nat) : joins u v = fun e => decide (e = (u, v) ∨ e = (v, u)) := by
  funext e
  rw [Bool.eq_iff_iff, joins_iff, decide_eq_true_iff]

theorem edgeIdx_isSome_iff {g : Graph} {u v : Nat} : (g.edgeIdx u v).isSome ↔ Adj g u v := by
  simp only [Graph.edgeIdx, List.findIdx?_isSome, List.any_eq_true, joins_iff, Adj]
  constructor
  · rintro ⟨e, he, rfl | rfl⟩ <;> simp [he]
  · rintro (h | h) <;> exact ⟨_, h, by simp⟩

theorem edgeIdx_eq_none_iff {g : Graph} {u v : Nat} : g.edgeIdx u v = none ↔ ¬ Adj g u v := by
  rw [← edgeIdx_isSome_iff]; simp

theorem edgeIdx_comm (g : Graph) (u v : Nat) : g.edgeIdx u v = g.edgeIdx v u := by
  have : joins u v = joins v u := by
    funext e; rw [Bool.eq_iff_iff, joins_iff, joins_iff]; exact or_comm
  simp [Graph.edgeIdx, this]

theorem edgeIdx_eq_some {g : Graph} {u v i : Nat} (h : g.edgeIdx u v = some i) :
    g.edges[i]? = some (u, v) ∨ g.edges[i]? = some (v, u) := by
  rw [Graph.edgeIdx, List.findIdx?_eq_some_iff_getElem] at h
  obtain ⟨hi, h1, -⟩ := h
  rw [joins_iff] at h1
  rcases h1 with h1 | h1 <;> simp [hi, h1]

theorem pairCost_eq {g : Graph} {cost : Nat → Int} {u v i : Nat} (h : g.edgeIdx u v = some i) :
    pairCost g cost u v = cost i := by
  rw [Graph.edgeIdx, joins_eq] at h
  simp only [pairCost, h]

theorem pairCost_comm (g : Graph) (cost : Nat → Int) (u v : Nat) : pairCost g cost u v = pairCost g cost v u := by
  have := edgeIdx_comm g u v
  simp only [Graph.edgeIdx, joins_eq] at this
  simp only [pairCost, this]

@[simp] theorem isWalk_nil (g : Graph) : IsWalk g [] := by simp [IsWalk]
@[simp] theorem isWalk_singleton (g : Graph) (a : Nat) : IsWalk g [a] := by simp [IsWalk]
@[simp] theorem isWalk_cons_cons {g : Graph} {a b : Nat} {l : List Nat} :
    IsWalk g (a :: b :: l) ↔ Adj g a b ∧ IsWalk g (b :: l) := by simp [IsWalk]

theorem isWalk_append {g : Graph} {l m : List Nat} {a : Nat} :
    IsWalk g (l ++ a :: m) ↔ IsWalk g (l ++ [a]) ∧ IsWalk g (a :: m) := by
  simp only [IsWalk, consec_append l a m, List.mem_append, or_imp, forall_and]

theorem isWalk_reverse {g : Graph} {l : List Nat} : IsWalk g l.reverse ↔ IsWalk g l := by
  simp only [IsWalk, consec_reverse, List.mem_reverse, List.mem_map]
  constructor
  · intro h p hp; exact (h _ ⟨p, hp, rfl⟩).symm
  · rintro h p ⟨q, hq, rfl⟩; exact (h _ hq).symm

theorem IsWalk.lt {g : Graph} (hg : g.WF) {l : List Nat} (h : IsWalk g l) (hl : 2 ≤ l.length) :
    ∀ v ∈ l, v < g.n := by
  induction l with
  | nil => simp
  | cons a l ih => cases l with
    | nil => simp at hl
    | cons b l =>
      rw [isWalk_cons_cons] at h
      intro v hv
      rcases List.mem_cons.1 hv with rfl | hv
      · exact h.1.lt_left hg
      · cases l with
        | nil => simp at hv; subst hv; exact h.1.lt_right hg
        | cons c l => exact ih h.2 (by simp) v hv

@[simp] theorem walkCost_nil (g : Graph) (cost : Nat → Int) : walkCost g cost [] = 0 := rfl
@[simp] theorem walkCost_singleton (g : Graph) (cost : Nat → Int) (a : Nat) : walkCost g cost [a] = 0 := rfl
@[simp] theorem walkCost_cons_cons (g : Graph) (cost : Nat → Int) (a b : Nat) (l : List Nat) :
    walkCost g cost (a :: b :: l) = pairCost g cost a b + walkCost g cost (b :: l) := by
  simp [walkCost]

theorem walkCost_append (g : Graph) (cost : Nat → Int) (l m : List Nat) (a : Nat) :
    walkCost g cost (l ++ a :: m) = walkCost g cost (l ++ [a]) + walkCost g cost (a :: m) := by
  simp [walkCost, consec_append l a m]

theorem foldl_add_eq_sum {α : Type} (f : α → Int) (l : List α) (c : Int) :
    l.foldl (fun c e => c + f e) c = c + (l.map f).sum := by
  induction l generalizing c with
  | nil => simp
  | cons a l ih => simp [ih, Int.add_assoc]

theorem sum_eq_of_perm {l m : List Int} (h : l.Perm m) : l.sum = m.sum := by
  induction h with
  | nil => rfl
  | cons a _ ih => simp [ih]
  | swap a b l => simp only [List.sum_cons]; omega
  | trans _ _ h1 h2 => exact h1.trans h2

theorem totalCostEdges_eq (cost : Nat → Int) (es : List Nat) : totalCostEdges cost es = (es.map cost).sum := by
  simp [totalCostEdges, foldl_add_eq_sum]

theorem totalPrize_eq (prize : Nat → Int) (l : List Nat) : totalPrize prize l = prizeSum prize l := by
  simp [totalPrize, foldl_add_eq_sum, prizeSum]

theorem totalPrizeOfTour_eq (prize : Nat → Int) {t : List Nat} (ht : t ≠ []) :
    totalPrizeOfTour prize t = .ok (tourPrize prize t) := by
  cases t with
  | nil => exact absurd rfl ht
  | cons a t => simp [totalPrizeOfTour, tourPrize, totalPrize_eq]

@[simp] theorem prizeSum_nil (prize : Nat → Int) : prizeSum prize [] = 0 := rfl
@[simp] theorem prizeSum_cons (prize : Nat → Int) (a : Nat) (l : List Nat) :
    prizeSum prize (a :: l) = prize a + prizeSum prize l := by simp [prizeSum]
@[simp] theorem prizeSum_append (prize : Nat → Int) (l m : List Nat) :
    prizeSum prize (l ++ m) = prizeSum prize l + prizeSum prize m := by simp [prizeSum]

theorem prizeSum_nonneg {prize : Nat → Int} (h : ∀ v, 0 ≤ prize v) (l : List Nat) : 0 ≤ prizeSum prize l := by
  induction l with
  | nil => simp
  | cons a l ih => have := h a; simp; omega

/-- On a walk, `getEdgesInWalk` returns the edges of the consecutive pairs. -/
theorem getEdgesInWalk_of_isWalk {g : Graph} (hg : g.WF) {l : List Nat} (h : IsWalk g l) :
    ∃ es, getEdgesInWalk g l = .ok es ∧ es.map some = (consec l).map (fun p => g.edgeIdx p.1 p.2) := by
  induction l with
  | nil => exact ⟨[], rfl, rfl⟩
  | cons a l ih => cases l with
    | nil => exact ⟨[], rfl, rfl⟩
    | cons b l =>
      rw [isWalk_cons_cons] at h
      obtain ⟨es, h1, h2⟩ := ih h.2
      obtain ⟨e, he⟩ := Option.isSome_iff_exists.1 (edgeIdx_isSome_iff.2 h.1)
      refine ⟨e :: es, ?_, by simp [he, h2]⟩
      simp [getEdgesInWalk, Graph.edge, h.1.lt_left hg, he, h1]

/-- If `getEdgesInWalk` succeeds, its argument is a walk. -/
theorem isWalk_of_getEdgesInWalk {g : Graph} {l es : List Nat} (h : getEdgesInWalk g l = .ok es) :
    IsWalk g l ∧ es.map some = (consec l).map (fun p => g.edgeIdx p.1 p.2) := by
  induction l generalizing es with
  | nil => simp [getEdgesInWalk] at h; subst h; simp
  | cons a l ih => cases l with
    | nil => simp [getEdgesInWalk] at h; subst h; simp
    | cons b l =>
      simp only [getEdgesInWalk, Graph.edge] at h
      split at h
      · simp only [Res.ok_bind] at h
        split at h
        · simp at h
        · rename_i e he
          simp only [Res.bind_eq_ok, Res.pure_eq, Res.ok.injEq] at h
          obtain ⟨es', h1, rfl⟩ := h
          obtain ⟨h2, h3⟩ := ih h1
          refine ⟨isWalk_cons_cons.2 ⟨edgeIdx_isSome_iff.1 (by simp [he]), h2⟩, by simp [he, h3]⟩
      · simp at h

theorem totalCost_of_isWalk {g : Graph} (hg : g.WF) (cost : Nat → Int) {l : List Nat} (h : IsWalk g l) :
    totalCost g cost l = .ok (walkCost g cost l) := by
  obtain ⟨es, h1, h2⟩ := getEdgesInWalk_of_isWalk hg h
  simp only [totalCost, h1, Res.ok_bind, Res.pure_eq, totalCostEdges_eq, walkCost, Res.ok.injEq]
  clear h1 h
  generalize consec l = ps at h2
  induction ps generalizing es with
  | nil => cases es <;> simp_all
  | cons p ps ih =>
    cases es with
    | nil => simp at h2
    | cons e es =>
      simp only [List.map_cons, List.cons.injEq] at h2
      simp [ih es h2.2, pairCost_eq h2.1.symm]

theorem isWalk_of_totalCost {g : Graph} {cost : Nat → Int} {l : List Nat} {c : Int}
    (h : totalCost g cost l = .ok c) : IsWalk g l := by
  simp only [totalCost, Res.bind_eq_ok] at h
  obtain ⟨es, h1, -⟩ := h
  exact (isWalk_of_getEdgesInWalk h1).1

theorem IsTour.ne_nil {g : Graph} {r : Nat} {t : List Nat} (h : IsTour g r t) : t ≠ [] := by
  obtain ⟨m, rfl⟩ := h.shape; simp

/-- A tour written out. -/
theorem isTour_iff {g : Graph} {r : Nat} {m : List Nat} :
    IsTour g r (r :: (m ++ [r])) ↔ (r :: m).Nodup ∧ IsWalk g (r :: (m ++ [r])) := by
  have : (r :: (m ++ [r])).dropLast = r :: m := by
    rw [← List.cons_append, List.dropLast_concat]
  constructor
  · rintro ⟨-, h, h'⟩; rw [this] at h; exact ⟨h, h'⟩
  · rintro ⟨h, h'⟩; exact ⟨⟨m, rfl⟩, by rw [this]; exact h, h'⟩

theorem dropLast_tour (r : Nat) (m : List Nat) : (r :: (m ++ [r])).dropLast = r :: m := by
  rw [← List.cons_append, List.dropLast_concat]

end Pctsp
