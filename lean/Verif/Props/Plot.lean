import Verif.Model.Plot
import Verif.Lemmas.Walk

/-!
# C117: drawings of graphs and tours
-/

namespace Pctsp

variable {V K : Type}

/-- Every end of an edge has a position. -/
def Placed (x y : V → Option K) (pos : V → K × K) (edges : List (V × V)) : Prop :=
  ∀ e ∈ edges, (x e.1 = some (pos e.1).1 ∧ y e.1 = some (pos e.1).2) ∧ (x e.2 = some (pos e.2).1 ∧ y e.2 = some (pos e.2).2)

theorem edgeArray_none {pos : V → Option K} {edges : List (V × V)} : edgeArray pos edges = none ↔ ∃ e ∈ edges, pos e.1 = none ∨ pos e.2 = none := by
  induction edges with
  | nil => simp [edgeArray]
  | cons e edges ih =>
    simp only [edgeArray, List.mem_cons, exists_eq_or_imp, ← ih]
    cases pos e.1 <;> cases pos e.2 <;> cases edgeArray pos edges <;> simp

theorem edgeScatter_placed {x y : V → Option K} {pos : V → K × K} {edges : List (V × V)} (h : Placed x y pos edges) :
    ∃ xs ys, edgeScatter x y edges = some (xs, ys) ∧ xs.zip ys = edges.flatMap fun e => [pos e.1, pos e.2] := by
  induction edges with
  | nil => exact ⟨[], [], rfl, rfl⟩
  | cons e edges ih =>
    obtain ⟨xs, ys, h1, h2⟩ := ih fun e' he' => h e' (List.mem_cons_of_mem _ he')
    obtain ⟨⟨a, b⟩, c, d⟩ := h e (by simp)
    obtain ⟨h3, h4⟩ : edgeArray x edges = some xs ∧ edgeArray y edges = some ys := by
      simp only [edgeScatter] at h1
      cases hx : edgeArray x edges <;> cases hy : edgeArray y edges <;> simp_all
    refine ⟨(pos e.1).1 :: (pos e.2).1 :: xs, (pos e.1).2 :: (pos e.2).2 :: ys, ?_, ?_⟩
    · simp only [edgeScatter, edgeArray, a, b, c, d, h3, h4]
    · simp [h2]

theorem mem_consec_ends {P : Type} (p : V → P) (edges : List (V × V)) (s : P × P) :
    s ∈ consec (edges.flatMap fun e => [p e.1, p e.2]) ↔
      (∃ e ∈ edges, s = (p e.1, p e.2)) ∨ ∃ l e e' l', edges = l ++ e :: e' :: l' ∧ s = (p e.2, p e'.1) := by
  induction edges with
  | nil => simp
  | cons e edges ih =>
    cases edges with
    | nil =>
      simp only [List.flatMap_cons, List.flatMap_nil, List.append_nil, consec_cons_cons, consec_singleton, List.mem_singleton, exists_eq_left]
      constructor
      · exact .inl
      · rintro (h | ⟨l, a, b, l', h, -⟩)
        · exact h
        · have := congrArg List.length h
          simp at this
          omega
    | cons e' edges =>
      have hc : consec ((e :: e' :: edges).flatMap fun e => [p e.1, p e.2]) =
          (p e.1, p e.2) :: (p e.2, p e'.1) :: consec ((e' :: edges).flatMap fun e => [p e.1, p e.2]) := rfl
      rw [hc, List.mem_cons, List.mem_cons, ih]
      constructor
      · rintro (rfl | rfl | ⟨a, ha, rfl⟩ | ⟨l, a, b, l', h, rfl⟩)
        · exact .inl ⟨e, by simp, rfl⟩
        · exact .inr ⟨[], e, e', edges, rfl, rfl⟩
        · exact .inl ⟨a, by simp [List.mem_cons.1 ha], rfl⟩
        · exact .inr ⟨e :: l, a, b, l', by rw [h]; rfl, rfl⟩
      · rintro (⟨a, ha, rfl⟩ | ⟨l, a, b, l', h, rfl⟩)
        · rcases List.mem_cons.1 ha with rfl | ha
          · exact .inl rfl
          · exact .inr (.inr (.inl ⟨a, ha, rfl⟩))
        · cases l with
          | nil =>
            simp only [List.nil_append, List.cons.injEq] at h
            obtain ⟨rfl, rfl, -⟩ := h
            exact .inr (.inl rfl)
          | cons c l =>
            simp only [List.cons_append, List.cons.injEq] at h
            exact .inr (.inr (.inr ⟨l, a, b, l', h.2, rfl⟩))

/-- **C117**: the drawing fails iff some end of an edge has no position. -/
theorem C117_fails (x y : V → Option K) (edges : List (V × V)) :
    edgeScatter x y edges = none ↔ ∃ e ∈ edges, x e.1 = none ∨ x e.2 = none ∨ y e.1 = none ∨ y e.2 = none := by
  have h1 := @edgeArray_none V K x edges
  have h2 := @edgeArray_none V K y edges
  have : edgeScatter x y edges = none ↔ edgeArray x edges = none ∨ edgeArray y edges = none := by
    rw [edgeScatter]
    cases edgeArray x edges <;> cases edgeArray y edges <;> simp
  rw [this, h1, h2]
  constructor
  · rintro (⟨e, he, h | h⟩ | ⟨e, he, h | h⟩) <;> exact ⟨e, he, by simp [h]⟩
  · rintro ⟨e, he, h | h | h | h⟩
    · exact .inl ⟨e, he, .inl h⟩
    · exact .inl ⟨e, he, .inr h⟩
    · exact .inr ⟨e, he, .inl h⟩
    · exact .inr ⟨e, he, .inr h⟩

/-- **C117**: the lines that are drawn: one for every edge, and one from the second end of every edge to the first end of the edge in the next row. -/
theorem C117_lines {x y : V → Option K} {pos : V → K × K} {edges : List (V × V)} (h : Placed x y pos edges) :
    ∃ trace, edgeScatter x y edges = some trace ∧ ∀ s, s ∈ drawnLines trace ↔
      (∃ e ∈ edges, s = (pos e.1, pos e.2)) ∨ ∃ l e e' l', edges = l ++ e :: e' :: l' ∧ s = (pos e.2, pos e'.1) := by
  obtain ⟨xs, ys, h1, h2⟩ := edgeScatter_placed h
  refine ⟨(xs, ys), h1, fun s => ?_⟩
  rw [drawnLines, h2, mem_consec_ends]

/-- **C117**: if different vertices have different positions then every drawn line is an edge or a point iff each row starts where the row before ends, or these two
vertices are the ends of an edge. -/
theorem C117_clean {x y : V → Option K} {pos : V → K × K} {edges : List (V × V)} (h : Placed x y pos edges)
    (hinj : ∀ u v, pos u = pos v → u = v) :
    ∃ trace, edgeScatter x y edges = some trace ∧
      ((∀ s ∈ drawnLines trace, s.1 = s.2 ∨ ∃ e ∈ edges, s = (pos e.1, pos e.2) ∨ s = (pos e.2, pos e.1)) ↔
        ∀ l e e' l', edges = l ++ e :: e' :: l' → e.2 = e'.1 ∨ (e.2, e'.1) ∈ edges ∨ (e'.1, e.2) ∈ edges) := by
  obtain ⟨trace, h1, h2⟩ := C117_lines h
  refine ⟨trace, h1, fun hd l e e' l' he => ?_, fun hd s hs => ?_⟩
  · rcases hd (pos e.2, pos e'.1) ((h2 _).2 (.inr ⟨l, e, e', l', he, rfl⟩)) with hs | ⟨f, hf, hs | hs⟩
    · exact .inl (hinj _ _ hs)
    · simp only [Prod.mk.injEq] at hs
      rw [hinj _ _ hs.1, hinj _ _ hs.2]
      exact .inr (.inl hf)
    · simp only [Prod.mk.injEq] at hs
      rw [hinj _ _ hs.1, hinj _ _ hs.2]
      exact .inr (.inr hf)
  · rcases (h2 s).1 hs with ⟨e, he, rfl⟩ | ⟨l, e, e', l', he, rfl⟩
    · exact .inr ⟨e, he, .inl rfl⟩
    · rcases hd l e e' l' he with h3 | h3 | h3
      · exact .inl (by rw [h3])
      · exact .inr ⟨_, h3, .inl rfl⟩
      · exact .inr ⟨_, h3, .inr rfl⟩

section tours

variable [DecidableEq V]

/-- **C117**: the trace of a tour has a line for every edge of the tour that is in the table, and a line from the end of every such row to the start of the next such
row; nothing else.  It fails only if a vertex of the tour has no position. -/
theorem C117_tour {x y : V → Option K} {pos : V → K × K} {edges : List (V × V)} {tour : List V}
    (h : ∀ v ∈ tour, x v = some (pos v).1 ∧ y v = some (pos v).2) :
    ∃ trace rows, tourEdgesTrace x y tour edges = some trace ∧ rows.Sublist edges ∧
      (∀ e, e ∈ rows ↔ e ∈ edges ∧ ((e.1, e.2) ∈ consec tour ∨ (e.2, e.1) ∈ consec tour)) ∧
      ∀ s, s ∈ drawnLines trace ↔ (∃ e ∈ rows, s = (pos e.1, pos e.2)) ∨ ∃ l e e' l', rows = l ++ e :: e' :: l' ∧ s = (pos e.2, pos e'.1) := by
  have hmem : ∀ e, e ∈ tourRows tour edges ↔ e ∈ edges ∧ ((e.1, e.2) ∈ consec tour ∨ (e.2, e.1) ∈ consec tour) := by
    intro e; simp [tourRows]
  have hp : Placed (fun v => if v ∈ tour then x v else none) (fun v => if v ∈ tour then y v else none) pos (tourRows tour edges) := by
    intro e he
    obtain ⟨h1, h2⟩ : e.1 ∈ tour ∧ e.2 ∈ tour := by
      rcases ((hmem e).1 he).2 with h | h
      · exact mem_of_mem_consec h
      · exact (mem_of_mem_consec h).symm
    simp [h1, h2, h e.1 h1, h e.2 h2]
  obtain ⟨trace, h1, h2⟩ := C117_lines hp
  exact ⟨trace, _, h1, List.filter_sublist, hmem, h2⟩

/-- **C117**: if the table has the edges of the tour in the order and direction of the tour then exactly the tour is drawn. -/
theorem C117_ordered {x y : V → Option K} {pos : V → K × K} {edges : List (V × V)} {tour : List V}
    (h : ∀ v ∈ tour, x v = some (pos v).1 ∧ y v = some (pos v).2) (ho : tourRows tour edges = consec tour) :
    ∃ trace, tourEdgesTrace x y tour edges = some trace ∧
      (∀ e ∈ consec tour, (pos e.1, pos e.2) ∈ drawnLines trace) ∧
      ∀ s ∈ drawnLines trace, s.1 = s.2 ∨ ∃ e ∈ consec tour, s = (pos e.1, pos e.2) := by
  have hp : Placed (fun v => if v ∈ tour then x v else none) (fun v => if v ∈ tour then y v else none) pos (consec tour) := by
    intro e he
    obtain ⟨h1, h2⟩ := mem_of_mem_consec he
    simp [h1, h2, h e.1 h1, h e.2 h2]
  have chain : ∀ t : List V, ∀ l e e' l', consec t = l ++ e :: e' :: l' → e.2 = e'.1 := by
    intro t
    induction t with
    | nil => intro l e e' l' h; simp at h
    | cons a t ih =>
      intro l e e' l' h
      cases t with
      | nil => simp at h
      | cons b t =>
        cases l with
        | nil =>
          cases t with
          | nil => simp at h
          | cons c t =>
            simp only [consec_cons_cons, List.nil_append, List.cons.injEq] at h
            obtain ⟨rfl, rfl, -⟩ := h
            rfl
        | cons d l =>
          simp only [consec_cons_cons, List.cons_append, List.cons.injEq] at h
          exact ih l e e' l' h.2
  obtain ⟨trace, h1, h2⟩ := C117_lines hp
  refine ⟨trace, by rw [tourEdgesTrace, ho]; exact h1, fun e he => (h2 _).2 (.inl ⟨e, he, rfl⟩), fun s hs => ?_⟩
  rcases (h2 s).1 hs with ⟨e, he, rfl⟩ | ⟨l, e, e', l', he, rfl⟩
  · exact .inr ⟨e, he, rfl⟩
  · exact .inl (by rw [chain _ _ _ _ _ he])

end tours

/-- The corners of a square. -/
def squarePos (v : Nat) : Int × Int := (if v = 1 ∨ v = 2 then 1 else 0, if v = 2 ∨ v = 3 then 1 else 0)

def squareX (v : Nat) : Option Int := if v < 4 then some (squarePos v).1 else none
def squareY (v : Nat) : Option Int := if v < 4 then some (squarePos v).2 else none

/-- **C117**: the trace of the tour around a square contains a diagonal, when the table lists the edges in the order of their ends. -/
theorem C117_spurious : ∃ trace, tourEdgesTrace squareX squareY [0, 1, 2, 3, 0] [(0, 1), (0, 2), (0, 3), (1, 2), (1, 3), (2, 3)] = some trace ∧
    (squarePos 3, squarePos 1) ∈ drawnLines trace ∧ (1, 3) ∉ consec [0, 1, 2, 3, 0] ∧ (3, 1) ∉ consec [0, 1, 2, 3, 0] :=
  ⟨_, rfl, by decide, by decide, by decide⟩

example : Placed squareX squareY squarePos [(0, 1), (1, 2), (2, 3), (3, 0)] ∧ (∀ u < 4, ∀ v < 4, squarePos u = squarePos v → u = v) := by
  unfold Placed; decide
example : (∀ v ∈ [0, 1, 2, 3, 0], squareX v = some (squarePos v).1 ∧ squareY v = some (squarePos v).2) ∧
    tourRows [0, 1, 2, 3, 0] [(0, 1), (0, 2), (1, 2), (2, 3), (3, 0), (1, 3)] = consec [0, 1, 2, 3, 0] := by decide
example : edgeScatter squareX squareY [(0, 1), (1, 4)] = none := by decide
-- different vertices at different places
example : ∃ pos : Nat → Nat × Nat, (∀ u v, pos u = pos v → u = v) ∧ Placed (fun v => some v) (fun _ => some 0) pos [(0, 1), (2, 3)] :=
  ⟨fun v => (v, 0), fun u v h => by simpa using h, by simp [Placed]⟩

end Pctsp
