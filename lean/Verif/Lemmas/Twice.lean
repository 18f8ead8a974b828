import Verif.Spec.Twice
import Verif.Lemmas.SolveLoops

/-! Helper lemmas: the model of a graph in which edges are listed several times. -/

namespace Pctsp

/-- The graph of the model: one self-loop at each vertex. -/
structure OneLoop (g : Graph) : Prop where
  wf : g.WF
  loops : ∀ v < g.n, g.edges.count (v, v) = 1

/-- The first copy of the edge. -/
def firstOf (g : Graph) (e : Nat) : Nat := (g.edgeIdx (endsOf g e).1 (endsOf g e).2).getD 0

/-- The values of the first copies. -/
def firsts (g : Graph) (x : Nat → Int) (e : Nat) : Int := if firstOf g e = e then x e else 0

/-- The values of the first copies, times the number of copies. -/
def weighted (g : Graph) (x : Nat → Int) (e : Nat) : Int := timesListed g (endsOf g e) * firsts g x e

variable {g : Graph}

theorem endsOf_eq {e : Nat} {p : Nat × Nat} (h : g.edges[e]? = some p) : endsOf g e = p := by simp [endsOf, h]

theorem endsOf_getElem {e : Nat} (h : e < g.edges.length) : g.edges[e]? = some (endsOf g e) := by simp [endsOf, h]

theorem OneLoop.loops_mem (hg : OneLoop g) : ∀ v < g.n, (v, v) ∈ g.edges := fun v hv =>
  List.count_pos_iff.1 (by rw [hg.loops v hv]; omega)

/-- The number of places at which an element stands. -/
theorem count_places {α : Type} [BEq α] [LawfulBEq α] [DecidableEq α] (l : List α) (a : α) :
    ((List.range l.length).filter fun i => decide (l[i]? = some a)).length = l.count a := by
  induction l using List.reverseRecOn with
  | nil => rfl
  | append_singleton l b ih =>
    rw [List.length_append, List.length_singleton, List.range_succ, List.filter_append, List.length_append, List.count_append, ← ih]
    congr 1
    · congr 1
      refine List.filter_congr fun i hi => ?_
      rw [List.getElem?_append_left (List.mem_range.1 hi)]
    · simp only [List.filter_cons, List.filter_nil, List.getElem?_concat_length, Option.some.injEq, List.count_singleton, beq_iff_eq]
      by_cases h : b = a <;> simp [h]

theorem firstOf_spec {e : Nat} (he : e < g.edges.length) :
    g.edgeIdx (endsOf g e).1 (endsOf g e).2 = some (firstOf g e) ∧ firstOf g e < g.edges.length ∧ und (endsOf g (firstOf g e)) = und (endsOf g e) := by
  have hadj : Adj g (endsOf g e).1 (endsOf g e).2 := Or.inl (List.mem_of_getElem? (endsOf_getElem he))
  obtain ⟨i, hi⟩ := Option.isSome_iff_exists.1 (edgeIdx_isSome_iff.2 hadj)
  have h1 : firstOf g e = i := by rw [firstOf, hi]; rfl
  rw [h1]
  refine ⟨hi, ?_⟩
  rcases edgeIdx_eq_some hi with h | h
  · exact ⟨(List.getElem?_eq_some_iff.1 h).1, by rw [endsOf_eq h]⟩
  · refine ⟨(List.getElem?_eq_some_iff.1 h).1, ?_⟩
    rw [endsOf_eq h, ← und_swap]; rfl

theorem edgeIdx_und {p q : Nat × Nat} (h : und p = und q) : g.edgeIdx p.1 p.2 = g.edgeIdx q.1 q.2 := by
  obtain ⟨a, b⟩ := p
  obtain ⟨c, d⟩ := q
  rcases und_eq_iff.1 h with ⟨rfl, rfl⟩ | ⟨rfl, rfl⟩
  · rfl
  · exact edgeIdx_comm g _ _

theorem firstOf_und {e f : Nat} (h : und (endsOf g e) = und (endsOf g f)) : firstOf g e = firstOf g f := by
  rw [firstOf, firstOf, edgeIdx_und h]

theorem firstOf_firstOf {e : Nat} (he : e < g.edges.length) : firstOf g (firstOf g e) = firstOf g e := firstOf_und (firstOf_spec he).2.2

theorem und_ne {p q : Nat × Nat} (h : und p = und q) (hp : p.1 ≠ p.2) : q.1 ≠ q.2 := by
  obtain ⟨a, b⟩ := p
  obtain ⟨c, d⟩ := q
  have := und_eq_iff.1 h
  simp only at hp ⊢
  omega

/-- The places of the copies of an edge. -/
def copies (g : Graph) (u : Nat × Nat) : List Nat := (List.range g.edges.length).filter fun i => decide ((g.edges.map und)[i]? = some u)

theorem mem_copies {u : Nat × Nat} {e : Nat} : e ∈ copies g u ↔ e < g.edges.length ∧ und (endsOf g e) = u := by
  rw [copies, List.mem_filter, List.mem_range]
  refine and_congr_right fun h => ?_
  simp [endsOf, h]

theorem copies_length (u : Nat × Nat) : (copies g u).length = (g.edges.map und).count u := by
  rw [copies, ← count_places]
  simp

theorem copies_nodup (u : Nat × Nat) : (copies g u).Nodup := List.nodup_range.filter _

theorem timesListed_eq (p : Nat × Nat) : timesListed g p = (copies g (und p)).length := (copies_length _).symm

theorem timesListed_und {p q : Nat × Nat} (h : und p = und q) : timesListed g p = timesListed g q := by rw [timesListed, timesListed, h]

theorem timesListed_pos {e : Nat} (he : e < g.edges.length) : 1 ≤ timesListed g (endsOf g e) := by
  rw [timesListed_eq]
  exact List.length_pos_of_mem (mem_copies.2 ⟨he, rfl⟩)

/-- A copy that is not the first. -/
theorem timesListed_two {e : Nat} (he : e < g.edges.length) (h : firstOf g e ≠ e) : 2 ≤ timesListed g (endsOf g e) := by
  rw [timesListed_eq]
  have h1 : [firstOf g e, e].Subperm (copies g (und (endsOf g e))) := by
    refine List.Nodup.subperm (by simp [h]) fun f hf => ?_
    simp only [List.mem_cons, List.not_mem_nil, or_false] at hf
    rcases hf with rfl | rfl
    · exact mem_copies.2 (firstOf_spec he).2
    · exact mem_copies.2 ⟨he, rfl⟩
  exact h1.length_le

/-- The second copy. -/
def secondOf (g : Graph) (e : Nat) : Nat := ((copies g (und (endsOf g e))).find? fun s => decide (s ≠ firstOf g e)).getD 0

theorem secondOf_und {e f : Nat} (h : und (endsOf g e) = und (endsOf g f)) : secondOf g e = secondOf g f := by
  rw [secondOf, secondOf, h, firstOf_und h]

theorem secondOf_spec {e : Nat} (he : e < g.edges.length) (h : 2 ≤ timesListed g (endsOf g e)) :
    secondOf g e < g.edges.length ∧ und (endsOf g (secondOf g e)) = und (endsOf g e) ∧ firstOf g (secondOf g e) ≠ secondOf g e ∧
      secondOf g (secondOf g e) = secondOf g e := by
  rw [timesListed_eq] at h
  have hex : ∃ s, (copies g (und (endsOf g e))).find? (fun s => decide (s ≠ firstOf g e)) = some s := by
    rw [← Option.isSome_iff_exists, List.find?_isSome]
    by_contra hcon
    have h1 : (copies g (und (endsOf g e))).Subperm [firstOf g e] := (copies_nodup _).subperm fun f hf => by
      by_contra hne
      exact hcon ⟨f, hf, by simpa using hne⟩
    have := h1.length_le
    simp at this
    omega
  obtain ⟨s, hs⟩ := hex
  have h1 : secondOf g e = s := by rw [secondOf, hs]; rfl
  have h2 := mem_copies.1 (List.mem_of_find?_eq_some hs)
  have h3 := List.find?_some hs
  simp only [decide_eq_true_eq] at h3
  rw [h1]
  refine ⟨h2.1, h2.2, ?_, by rw [secondOf_und h2.2, h1]⟩
  rw [firstOf_und h2.2]
  exact fun h => h3 h.symm

/-! ### The rows of the model -/

/-- The entries of a degree row: the first copy stands for every copy. -/
theorem degreeEntries_eq {v loop : Nat} (hl : g.edgeIdx v v = some loop) :
    degreeEntries g v loop (g.adjacent v) = ((List.range g.edges.length).filter (incident g v)).map fun e => (firstOf g e, 1) := by
  have hloop : g.edges[loop]? = some (v, v) := by rcases edgeIdx_eq_some hl with h | h <;> exact h
  have key : ∀ (es pre : List (Nat × Nat)), g.edges = pre ++ es →
      degreeEntries g v loop (es.flatMap (Graph.nbrsOf v)) = ((List.range' pre.length es.length).filter (incident g v)).map fun e => (firstOf g e, 1) := by
    intro es
    induction es with
    | nil => intro pre _; simp [degreeEntries]
    | cons p es ih =>
      intro pre hpre
      have hi : g.edges[pre.length]? = some p := by rw [hpre]; simp
      have hilt := (List.getElem?_eq_some_iff.1 hi).1
      rw [List.flatMap_cons, degreeEntries_append, List.length_cons, List.range'_succ, List.filter_cons, ih (pre ++ [p]) (by simp [hpre])]
      simp only [List.length_append, List.length_singleton]
      obtain ⟨a, b⟩ := p
      obtain ⟨h1, -, h2⟩ := firstOf_spec hilt
      rw [endsOf_eq hi] at h1 h2
      have hne : ¬ (a = v ∧ b = v) → firstOf g pre.length ≠ loop := by
        intro h heq
        rw [heq, endsOf_eq hloop, und_eq_iff] at h2
        omega
      have hinc : incident g v pre.length = (decide (a ≠ b) && (a == v || b == v)) := by rw [incident, hi]
      simp only at h1
      by_cases ha : a = v
      · subst ha
        by_cases hb : b = a
        · subst hb
          rw [if_neg (by simp [hinc])]
          simp [Graph.nbrsOf, degreeEntries, hl]
        · rw [if_pos (by simp [hinc]; omega)]
          have hb' : ¬ (a = b) := fun h => hb h.symm
          simp [Graph.nbrsOf, hb, degreeEntries, h1, hne (by omega)]
      · by_cases hb : b = v
        · subst hb
          rw [if_pos (by simp [hinc, ha])]
          rw [edgeIdx_comm] at h1
          simp [Graph.nbrsOf, ha, degreeEntries, h1, hne (by omega)]
        · rw [if_neg (by simp [hinc, ha, hb])]
          simp [Graph.nbrsOf, ha, hb, degreeEntries]
  have := key g.edges [] rfl
  rw [List.range_eq_range']
  simpa [Graph.adjacent] using this

theorem incident_und {v e f : Nat} (he : e < g.edges.length) (hf : f < g.edges.length) (h : und (endsOf g e) = und (endsOf g f)) :
    incident g v e = incident g v f := by
  rw [incident, incident, endsOf_getElem he, endsOf_getElem hf]
  rcases hp : endsOf g e with ⟨a, b⟩
  rcases hq : endsOf g f with ⟨c, d⟩
  rw [hp, hq] at h
  rw [Bool.eq_iff_iff]
  simp only [Bool.and_eq_true, decide_eq_true_eq, Bool.or_eq_true, beq_iff_eq]
  have := und_eq_iff.1 h
  omega

theorem incident_ne {v e : Nat} (h : incident g v e = true) : e < g.edges.length ∧ (endsOf g e).1 ≠ (endsOf g e).2 := by
  unfold incident at h
  cases hp : g.edges[e]? with
  | none => rw [hp] at h; simp at h
  | some p =>
    rw [hp] at h
    simp only [Bool.and_eq_true, decide_eq_true_eq] at h
    exact ⟨(List.getElem?_eq_some_iff.1 hp).1, by rw [endsOf_eq hp]; exact h.1⟩

theorem sum_map_const {l : List Nat} {c : Int} : (l.map fun _ => c).sum = l.length * c := by
  induction l with
  | nil => simp
  | cons a l ih => rw [List.map_cons, List.sum_cons, ih, List.length_cons]; push_cast; rw [Int.add_mul]; omega

/-- The values of the first copies count as often as there are copies. -/
theorem sum_first (x : Nat → Int) (v : Nat) :
    (((List.range g.edges.length).filter (incident g v)).map fun e => x (firstOf g e)).sum = edgeSum g (weighted g x) (incident g v) := by
  have h1 : (((List.range g.edges.length).filter (incident g v)).map fun e => x (firstOf g e)).sum =
      ((List.range g.edges.length).map fun e => ((List.range g.edges.length).map fun f =>
        if incident g v e = true ∧ firstOf g e = f then x f else 0).sum).sum := by
    have : ((List.range g.edges.length).map fun e => ((List.range g.edges.length).map fun f =>
        if incident g v e = true ∧ firstOf g e = f then x f else 0).sum) =
        (List.range g.edges.length).map fun e => if incident g v e then x (firstOf g e) else 0 := by
      refine List.map_congr_left fun e he => ?_
      by_cases hi : incident g v e = true
      · simp only [hi, true_and, if_true]
        have h2 : (fun f => if firstOf g e = f then x f else 0) = fun f => if firstOf g e = f then x (firstOf g e) else 0 := by
          funext f
          by_cases h : firstOf g e = f
          · rw [if_pos h, if_pos h, h]
          · rw [if_neg h, if_neg h]
        rw [h2, sum_ite_eq List.nodup_range, if_pos (List.mem_range.2 (firstOf_spec (List.mem_range.1 he)).2.1)]
      · have h2 : (fun f => if incident g v e = true ∧ firstOf g e = f then x f else 0) = fun _ => (0 : Int) := by
          funext f
          exact if_neg fun h => hi h.1
        rw [h2, sum_map_const, if_neg hi]; simp
    rw [this, ← edgeSum_eq g (fun e => x (firstOf g e))]
    rfl
  rw [h1, sum_swap, edgeSum_eq]
  congr 1
  refine List.map_congr_left fun f hf => ?_
  have hflt := List.mem_range.1 hf
  by_cases hi : incident g v f = true
  · rw [if_pos hi]
    by_cases hff : firstOf g f = f
    · rw [weighted, firsts, if_pos hff]
      have h2 : ((List.range g.edges.length).map fun e => if incident g v e = true ∧ firstOf g e = f then x f else 0) =
          (List.range g.edges.length).map fun e => if decide ((g.edges.map und)[e]? = some (und (endsOf g f))) = true then x f else 0 := by
        refine List.map_congr_left fun e he => ?_
        have helt := List.mem_range.1 he
        have h3 : (incident g v e = true ∧ firstOf g e = f) ↔ decide ((g.edges.map und)[e]? = some (und (endsOf g f))) = true := by
          have h4 : decide ((g.edges.map und)[e]? = some (und (endsOf g f))) = true ↔ und (endsOf g e) = und (endsOf g f) := by
            simp [endsOf, helt]
          rw [h4]
          constructor
          · rintro ⟨-, rfl⟩
            exact (firstOf_spec helt).2.2.symm
          · intro h
            exact ⟨by rw [incident_und helt hflt h]; exact hi, by rw [firstOf_und h]; exact hff⟩
        by_cases h : (incident g v e = true ∧ firstOf g e = f)
        · rw [if_pos h, if_pos (h3.1 h)]
        · rw [if_neg h, if_neg fun h' => h (h3.2 h')]
      rw [h2]
      have h5 := edgeSum_eq g (fun _ => x f) fun e => decide ((g.edges.map und)[e]? = some (und (endsOf g f)))
      rw [← h5, edgeSum, sum_map_const]
      have h6 : ((List.range g.edges.length).filter fun e => decide ((g.edges.map und)[e]? = some (und (endsOf g f)))).length = timesListed g (endsOf g f) := by
        have := copies_length (g := g) (und (endsOf g f))
        rw [copies] at this
        rw [this]
        rfl
      rw [h6]
    · rw [weighted, firsts, if_neg hff]
      have : ((List.range g.edges.length).map fun e => if incident g v e = true ∧ firstOf g e = f then x f else 0) =
          (List.range g.edges.length).map fun _ => (0 : Int) := by
        refine List.map_congr_left fun e he => ?_
        rw [if_neg]
        rintro ⟨-, h⟩
        apply hff
        rw [← h]
        exact firstOf_firstOf (List.mem_range.1 he)
      rw [this, sum_map_const]; simp
  · rw [if_neg hi]
    have : ((List.range g.edges.length).map fun e => if incident g v e = true ∧ firstOf g e = f then x f else 0) =
        (List.range g.edges.length).map fun _ => (0 : Int) := by
      refine List.map_congr_left fun e he => ?_
      rw [if_neg]
      rintro ⟨h, rfl⟩
      apply hi
      rw [incident_und (firstOf_spec (List.mem_range.1 he)).2.1 (List.mem_range.1 he) (firstOf_spec (List.mem_range.1 he)).2.2]
      exact h
    rw [this, sum_map_const]; simp

/-- The degree row counts the first copies. -/
theorem OneLoop.degreeRow (hg : OneLoop g) {v : Nat} (hv : v < g.n) :
    ∃ row, Pctsp.degreeRow g v = .ok row ∧ row.lhs = some 0 ∧ row.rhs = some 0 ∧
      ∀ x, row.activity x = edgeSum g (weighted g x) (incident g v) - 2 * loopVal g x v := by
  have hc := hg.loops v hv
  rcases degreeRow_cases g v with ⟨h, -⟩ | ⟨-, loop, hl, h⟩ | ⟨h, -⟩
  · omega
  · refine ⟨_, h, rfl, rfl, fun x => ?_⟩
    rw [Row.activity, List.map_cons, List.sum_cons, degreeEntries_eq hl, List.map_map]
    have := sum_first (g := g) x v
    have h2 : ((fun p : Nat × Int => p.2 * x p.1) ∘ fun e => (firstOf g e, (1 : Int))) = fun e => x (firstOf g e) := by
      funext e; simp
    rw [h2, this, loopVal, hl, Option.getD_some]
    simp only
    omega
  · omega

theorem OneLoop.degreeRows (hg : OneLoop g) : ∃ rows, Pctsp.degreeRows g = .ok rows ∧ (∀ row ∈ rows, row.lhs = some 0 ∧ row.rhs = some 0) ∧
    ∀ x, (∀ row ∈ rows, row.activity x = 0) ↔ ∀ v < g.n, edgeSum g (weighted g x) (incident g v) = 2 * loopVal g x v := by
  have : ∀ vs : List Nat, (∀ v ∈ vs, v < g.n) → ∃ rows, mapRes (Pctsp.degreeRow g) vs = .ok rows ∧
      (∀ row ∈ rows, row.lhs = some 0 ∧ row.rhs = some 0) ∧
      ∀ x, (∀ row ∈ rows, row.activity x = 0) ↔ ∀ v ∈ vs, edgeSum g (weighted g x) (incident g v) = 2 * loopVal g x v := by
    intro vs
    induction vs with
    | nil => intro _; exact ⟨[], rfl, by simp⟩
    | cons v vs ih =>
      intro h
      obtain ⟨rows, h1, h2, h2'⟩ := ih fun v hv => h v (by simp [hv])
      obtain ⟨row, h3, h4, h5, h6⟩ := hg.degreeRow (h v (by simp))
      refine ⟨row :: rows, by simp [mapRes, h1, h3], ?_, fun x => ?_⟩
      · intro r hr
        rcases List.mem_cons.1 hr with rfl | hr
        · exact ⟨h4, h5⟩
        · exact h2 r hr
      · simp only [List.mem_cons, forall_eq_or_imp, h2', h6]
        refine and_congr_left fun _ => ?_
        omega
  obtain ⟨rows, h1, h2⟩ := this (List.range g.n) (by simp)
  exact ⟨rows, h1, by simpa using h2⟩

theorem OneLoop.loopIdx (hg : OneLoop g) {e v : Nat} (h : g.edges[e]? = some (v, v)) : g.edgeIdx v v = some e := by
  have hv : v < g.n := (hg.wf _ (List.mem_of_getElem? h)).1
  obtain ⟨i, hi⟩ := Option.isSome_iff_exists.1 (edgeIdx_isSome_iff.2 (Or.inl (hg.loops_mem v hv) : Adj g v v))
  rw [hi]
  have h1 := hg.loops v hv
  rw [← count_places] at h1
  have hi' : g.edges[i]? = some (v, v) := by rcases edgeIdx_eq_some hi with h | h <;> exact h
  have hm : ∀ j, g.edges[j]? = some (v, v) → j ∈ (List.range g.edges.length).filter fun i => decide (g.edges[i]? = some (v, v)) := fun j hj =>
    List.mem_filter.2 ⟨List.mem_range.2 (List.getElem?_eq_some_iff.1 hj).1, by simp [hj]⟩
  have h2 := hm i hi'
  have h3 := hm e h
  generalize ((List.range g.edges.length).filter fun i => decide (g.edges[i]? = some (v, v))) = l at h1 h2 h3
  match l, h1 with
  | [a], _ =>
    simp only [List.mem_cons, List.not_mem_nil, or_false] at h2 h3
    rw [h2, h3]

end Pctsp
