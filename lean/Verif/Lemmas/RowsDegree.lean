import Verif.Lemmas.Rows

/-! # Lemmas about degree rows -/

namespace Pctsp

theorem SimpleWithLoops.idx_unique {g : Graph} (hg : SimpleWithLoops g) {i j : Nat} {p q : Nat × Nat} (hi : g.edges[i]? = some p)
    (hj : g.edges[j]? = some q) (h : und p = und q) : i = j := by
  have h1 : (g.edges.map und)[i]? = some (und p) := by simp [hi]
  have h2 : (g.edges.map und)[j]? = some (und p) := by simp [hj, h]
  have hlt : i < (g.edges.map und).length := (List.getElem?_eq_some_iff.1 h1).1
  exact (List.getElem?_inj hlt hg.simple).1 (h1.trans h2.symm)

theorem SimpleWithLoops.edgeIdx {g : Graph} (hg : SimpleWithLoops g) {u v e : Nat} (h : EdgeBetween g e u v) : g.edgeIdx u v = some e := by
  have hadj : Adj g u v := h.imp List.mem_of_getElem? List.mem_of_getElem?
  obtain ⟨i, hi⟩ := Option.isSome_iff_exists.1 (edgeIdx_isSome_iff.2 hadj)
  rw [hi]
  congr 1
  rcases edgeIdx_eq_some hi with h1 | h1 <;> rcases h with h | h <;> refine hg.idx_unique h1 h ?_ <;> rw [und_eq_iff] <;> omega

theorem SimpleWithLoops.count_loop {g : Graph} (hg : SimpleWithLoops g) {v : Nat} (hv : v < g.n) : g.edges.count (v, v) = 1 := by
  have h1 : 1 ≤ g.edges.count (v, v) := List.count_pos_iff.2 (hg.loops v hv)
  have h2 : g.edges.count (v, v) ≤ (g.edges.map und).count (und (v, v)) := List.count_le_count_map
  have h3 := List.nodup_iff_count_le_one.1 hg.simple (und (v, v))
  omega

theorem degreeEntries_append (g : Graph) (v loop : Nat) (as bs : List Nat) :
    degreeEntries g v loop (as ++ bs) = degreeEntries g v loop as ++ degreeEntries g v loop bs := by
  induction as with
  | nil => rfl
  | cons a as ih =>
    simp only [List.cons_append, degreeEntries, ih]
    cases g.edgeIdx v a with
    | none => rfl
    | some e => simp only; split <;> rfl

theorem degreeEntries_length {g : Graph} {v loop : Nat} (hl : g.edgeIdx v v = some loop) (ws : List Nat) (h : ∀ w ∈ ws, Adj g v w) :
    (degreeEntries g v loop ws).length + ws.count v = ws.length := by
  induction ws with
  | nil => rfl
  | cons w ws ih =>
    obtain ⟨e, he⟩ := Option.isSome_iff_exists.1 (edgeIdx_isSome_iff.2 (h w (by simp)))
    have := ih fun w hw => h w (by simp [hw])
    rw [degreeEntries, he]
    simp only [List.count_cons, List.length_cons]
    by_cases hw : w = v
    · subst hw
      rw [hl] at he
      simp only [Option.some.injEq] at he
      subst he
      simp only [ne_eq, not_true_eq_false, if_false, beq_self_eq_true, if_true]
      omega
    · have : e ≠ loop := by
        rintro rfl
        rcases edgeIdx_eq_some hl with h1 | h1 <;> rcases edgeIdx_eq_some he with h2 | h2 <;> rw [h1] at h2 <;> simp at h2 <;> omega
      simp [this, hw]; omega

theorem count_adjacent_self (g : Graph) (v : Nat) : (g.adjacent v).count v = 2 * g.edges.count (v, v) := by
  unfold Graph.adjacent
  generalize g.edges = es
  induction es with
  | nil => rfl
  | cons e es ih =>
    obtain ⟨a, b⟩ := e
    rw [List.flatMap_cons, List.count_append, ih, List.count_cons]
    simp only [Graph.nbrsOf]
    by_cases ha : a = v <;> by_cases hb : b = v <;> simp [ha, hb] <;> omega

/-- The outcome of the construction of a degree row, for any graph. -/
theorem degreeRow_cases (g : Graph) (v : Nat) :
    (g.edges.count (v, v) = 0 ∧ degreeRow g v = .throw (.edgeNotFound v v)) ∨
    (g.edges.count (v, v) = 1 ∧ ∃ loop, g.edgeIdx v v = some loop ∧
      degreeRow g v = .ok { coeffs := (loop, -2) :: degreeEntries g v loop (g.adjacent v), lhs := some 0, rhs := some 0 }) ∨
    (2 ≤ g.edges.count (v, v) ∧ degreeRow g v = .ub "degree row: uninitialised slot") := by
  cases hl : g.edgeIdx v v with
  | none =>
    left
    have : ¬ Adj g v v := edgeIdx_eq_none_iff.1 hl
    refine ⟨?_, by simp [degreeRow, hl]⟩
    rw [List.count_eq_zero]
    exact fun h => this (Or.inl h)
  | some loop =>
    right
    have hadj : Adj g v v := edgeIdx_isSome_iff.1 (by simp [hl])
    have hc : 1 ≤ g.edges.count (v, v) := List.count_pos_iff.2 (by simpa [Adj] using hadj)
    have h1 := degreeEntries_length hl (g.adjacent v) (fun w hw => mem_adjacent.1 hw)
    have h2 := count_adjacent_self g v
    simp only [degreeRow, hl, List.length_cons]
    by_cases h3 : g.edges.count (v, v) = 1
    · left
      refine ⟨h3, loop, rfl, ?_⟩
      rw [if_neg (by omega), if_neg (by omega)]
    · right
      refine ⟨by omega, ?_⟩
      rw [if_pos (by omega)]

/-- The entries of a degree row of a simple graph. -/
theorem degreeEntries_simple {g : Graph} (hg : SimpleWithLoops g) {v loop : Nat} (hl : g.edgeIdx v v = some loop) :
    degreeEntries g v loop (g.adjacent v) = ((List.range g.edges.length).filter (incident g v)).map fun e => (e, 1) := by
  have hloop : g.edges[loop]? = some (v, v) := by rcases edgeIdx_eq_some hl with h | h <;> exact h
  have key : ∀ (es pre : List (Nat × Nat)), g.edges = pre ++ es →
      degreeEntries g v loop (es.flatMap (Graph.nbrsOf v)) = ((List.range' pre.length es.length).filter (incident g v)).map fun e => (e, 1) := by
    intro es
    induction es with
    | nil => intro pre _; simp [degreeEntries]
    | cons p es ih =>
      intro pre hpre
      have hi : g.edges[pre.length]? = some p := by rw [hpre]; simp
      rw [List.flatMap_cons, degreeEntries_append, List.length_cons, List.range'_succ, List.filter_cons, ih (pre ++ [p]) (by simp [hpre])]
      simp only [List.length_append, List.length_singleton]
      obtain ⟨a, b⟩ := p
      have hne : ¬ (a = v ∧ b = v) → pre.length ≠ loop := by
        rintro h rfl
        rw [hloop] at hi
        simp only [Option.some.injEq, Prod.mk.injEq] at hi
        omega
      have hinc : incident g v pre.length = (decide (a ≠ b) && (a == v || b == v)) := by rw [incident, hi]
      by_cases ha : a = v
      · subst ha
        by_cases hb : b = a
        · subst hb
          rw [if_neg (by simp [hinc])]
          simp [Graph.nbrsOf, degreeEntries, hl]
        · rw [if_pos (by simp [hinc]; omega)]
          have := hg.edgeIdx (Or.inl hi)
          have hb' : ¬ (a = b) := fun h => hb h.symm
          simp [Graph.nbrsOf, hb, degreeEntries, this, hne (by omega)]
      · by_cases hb : b = v
        · subst hb
          rw [if_pos (by simp [hinc, ha])]
          have := hg.edgeIdx (Or.inr hi)
          simp [Graph.nbrsOf, ha, degreeEntries, this, hne (by omega)]
        · rw [if_neg (by simp [hinc, ha, hb])]
          simp [Graph.nbrsOf, ha, hb, degreeEntries]
  have := key g.edges [] rfl
  rw [List.range_eq_range']
  simpa [Graph.adjacent] using this

theorem sum_map_one (es : List Nat) (x : Nat → Int) : ((es.map fun e => (e, (1 : Int))).map fun p => p.2 * x p.1).sum = (es.map x).sum := by
  rw [List.map_map]
  congr 1
  refine List.map_congr_left fun e _ => ?_
  simp

/-- The degree row of a vertex of a simple graph. -/
theorem degreeRow_simple {g : Graph} (hg : SimpleWithLoops g) {v : Nat} (hv : v < g.n) :
    ∃ loop, g.edgeIdx v v = some loop ∧ degreeRow g v =
      .ok { coeffs := (loop, -2) :: ((List.range g.edges.length).filter (incident g v)).map fun e => (e, 1), lhs := some 0, rhs := some 0 } := by
  have hc := hg.count_loop hv
  rcases degreeRow_cases g v with ⟨h, -⟩ | ⟨-, loop, hl, h⟩ | ⟨h, -⟩
  · omega
  · exact ⟨loop, hl, by rw [h, degreeEntries_simple hg hl]⟩
  · omega

theorem degreeRow_sat {g : Graph} (hg : SimpleWithLoops g) {v : Nat} (hv : v < g.n) (x : Nat → Int) :
    ∃ row, degreeRow g v = .ok row ∧ (row.Sat x ↔ edgeSum g x (incident g v) = 2 * loopVal g x v) := by
  obtain ⟨loop, hl, h⟩ := degreeRow_simple hg hv
  refine ⟨_, h, ?_⟩
  simp only [Row.Sat, Row.activity, Option.some.injEq, forall_eq', List.map_cons, List.sum_cons]
  rw [sum_map_one, edgeSum, loopVal, hl, Option.getD_some]
  omega

/-- All degree rows are satisfied. -/
theorem degreeRows_sat {g : Graph} (hg : SimpleWithLoops g) (x : Nat → Int) :
    ∃ rows, degreeRows g = .ok rows ∧ ((∀ row ∈ rows, row.Sat x) ↔ ∀ v < g.n, edgeSum g x (incident g v) = 2 * loopVal g x v) := by
  have : ∀ vs : List Nat, (∀ v ∈ vs, v < g.n) → ∃ rows, mapRes (degreeRow g) vs = .ok rows ∧
      ((∀ row ∈ rows, row.Sat x) ↔ ∀ v ∈ vs, edgeSum g x (incident g v) = 2 * loopVal g x v) := by
    intro vs
    induction vs with
    | nil => intro _; exact ⟨[], rfl, by simp⟩
    | cons v vs ih =>
      intro h
      obtain ⟨rows, h1, h2⟩ := ih fun v hv => h v (by simp [hv])
      obtain ⟨row, h3, h4⟩ := degreeRow_sat hg (h v (by simp)) x
      refine ⟨row :: rows, by simp [mapRes, h1, h3], ?_⟩
      simp [h2, h4]
  obtain ⟨rows, h1, h2⟩ := this (List.range g.n) (by simp)
  exact ⟨rows, h1, by simpa using h2⟩

/-! ### Handshake -/

theorem edgeSum_eq (g : Graph) (x : Nat → Int) (P : Nat → Bool) :
    edgeSum g x P = ((List.range g.edges.length).map fun e => if P e then x e else 0).sum := by
  unfold edgeSum
  induction List.range g.edges.length with
  | nil => rfl
  | cons e es ih =>
    rw [List.filter_cons]
    by_cases h : P e = true
    · simp [h, ih]
    · simp [h, ih]

theorem sum_map_add {α : Type} (l : List α) (f h : α → Int) : (l.map fun a => f a + h a).sum = (l.map f).sum + (l.map h).sum := by
  induction l with
  | nil => rfl
  | cons a l ih => simp only [List.map_cons, List.sum_cons, ih]; omega

theorem sum_swap {α β : Type} (as : List α) (bs : List β) (f : α → β → Int) :
    (as.map fun a => (bs.map fun b => f a b).sum).sum = (bs.map fun b => (as.map fun a => f a b).sum).sum := by
  induction as with
  | nil =>
    simp only [List.map_nil, List.sum_nil]
    induction bs with
    | nil => rfl
    | cons b bs ih => simp only [List.map_cons, List.sum_cons]; omega
  | cons a as ih =>
    simp only [List.map_cons, List.sum_cons]
    rw [sum_map_add, ih]

theorem sum_ite_eq {vs : List Nat} (hnd : vs.Nodup) (a : Nat) (c : Int) : (vs.map fun v => if a = v then c else 0).sum = if a ∈ vs then c else 0 := by
  induction vs with
  | nil => rfl
  | cons v vs ih =>
    rw [List.nodup_cons] at hnd
    rw [List.map_cons, List.sum_cons, ih hnd.2]
    by_cases h : a = v
    · subst h; simp [hnd.1]
    · simp [h]

/-- The sum of the degrees in a set counts the edges inside twice and those that cross once. -/
theorem handshake (g : Graph) (x : Nat → Int) {vs : List Nat} (hnd : vs.Nodup) :
    (vs.map fun v => edgeSum g x (incident g v)).sum =
      2 * edgeSum g x (inside g fun v => decide (v ∈ vs)) + edgeSum g x (crosses g fun v => decide (v ∈ vs)) := by
  simp only [edgeSum_eq]
  rw [sum_swap, Int.two_mul, ← sum_map_add, ← sum_map_add]
  congr 1
  refine List.map_congr_left fun e _ => ?_
  cases hp : g.edges[e]? with
  | none => simp [incident, inside, crosses, hp]
  | some p =>
    obtain ⟨a, b⟩ := p
    by_cases hab : a = b
    · simp [incident, inside, crosses, hp, hab]
    · have h1 : ∀ v, (if incident g v e = true then x e else 0) = (if a = v then x e else 0) + (if b = v then x e else 0) := by
        intro v
        simp only [incident, hp]
        by_cases ha : a = v
        · have : b ≠ v := fun h => hab (ha.trans h.symm)
          subst ha
          simp [hab, this]
        · by_cases hb : b = v
          · simp [ha, hb]
          · simp [ha, hb]
      simp only [h1]
      rw [sum_map_add, sum_ite_eq hnd, sum_ite_eq hnd]
      simp only [inside, crosses, hp]
      by_cases ha : a ∈ vs <;> by_cases hb : b ∈ vs <;> simp [ha, hb, hab]

/-- The induced edges of a vertex set of a simple graph are the edges inside it. -/
theorem induced_sum {g : Graph} (hg : SimpleWithLoops g) {vs es : List Nat} (hr : ∀ v ∈ vs, v < g.n) (hnd : vs.Nodup)
    (h : getEdgesInducedByVertices g vs = .ok es) (x : Nat → Int) : (es.map x).sum = edgeSum g x (inside g fun v => decide (v ∈ vs)) := by
  obtain ⟨h1, h2, h3⟩ := induced_spec hr hnd h
  have : es.Perm ((List.range g.edges.length).filter (inside g fun v => decide (v ∈ vs))) := by
    rw [List.perm_ext_iff_of_nodup h1 (List.nodup_range.filter _)]
    intro e
    rw [List.mem_filter, List.mem_range]
    constructor
    · intro he
      obtain ⟨p, hp, k1, k2, k3⟩ := h2 e he
      exact ⟨(List.getElem?_eq_some_iff.1 hp).1, by simp [inside, hp, k1, k2, k3]⟩
    · rintro ⟨hlt, hin⟩
      have hp : g.edges[e]? = some g.edges[e] := by simp [hlt]
      rw [inside, hp] at hin
      simp only [Bool.and_eq_true, decide_eq_true_eq] at hin
      refine h3 _ hin.2.1 _ hin.2.2 hin.1 e (hg.edgeIdx (Or.inl ?_))
      rw [hp]
  exact sum_eq_of_perm (this.map _)

theorem sum_loopVal {g : Graph} {x : Nat → Int} {vs : List Nat} (h : ∀ v ∈ vs, edgeSum g x (incident g v) = 2 * loopVal g x v) :
    (vs.map fun v => edgeSum g x (incident g v)).sum = 2 * (vs.map (loopVal g x)).sum := by
  induction vs with
  | nil => rfl
  | cons v vs ih =>
    simp only [List.map_cons, List.sum_cons]
    rw [ih fun v hv => h v (by simp [hv]), h v (by simp)]
    omega

/-- Twice the difference between the edges inside a set and its vertices is minus the value that crosses. -/
theorem cut_form {g : Graph} (hg : SimpleWithLoops g) {vs es : List Nat} (hr : ∀ v ∈ vs, v < g.n) (hnd : vs.Nodup)
    (h : getEdgesInducedByVertices g vs = .ok es) {x : Nat → Int} (hx : ∀ v ∈ vs, edgeSum g x (incident g v) = 2 * loopVal g x v) :
    2 * ((es.map x).sum - (vs.map (loopVal g x)).sum) = - edgeSum g x (crosses g fun v => decide (v ∈ vs)) := by
  have h1 := handshake g x hnd
  rw [sum_loopVal hx] at h1
  rw [induced_sum hg hr hnd h x]
  omega

end Pctsp
