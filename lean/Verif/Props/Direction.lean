import Verif.Lemmas.SameCycle
import Verif.Props.Gain
import Verif.Model.Collapse
import Verif.Lemmas.Dijkstra

/-!
# C158: the direction and the starting point of the tour

A closed tour, the same tour in the other direction and the same tour from another vertex are one cycle.  Extension by unitary gain treats them
alike unless a vertex has the same gain at two edges; path extension and collapse do not.
-/

namespace Pctsp

variable {F : Type}

/-- **C158.** Without ties, `extensionUnitaryGain` of a tour of three or more vertices in the other direction is its result in the other
direction. -/
theorem C158_unitary_gain (O : FloatOps F) (hO : O.Strict) (g : Graph) (cost prize : Nat → Int) (hnt : NoTies O g cost prize) (r : Nat)
    (t : List Nat) (ht : IsTour g r t) (hlen : 4 ≤ t.length) (hlt : ∀ x ∈ t, x < g.n) :
    ∃ t', extensionUnitaryGain O g t cost prize = .ok t' ∧ extensionUnitaryGain O g t.reverse cost prize = .ok t'.reverse := by
  have := outsideCount_le g t
  obtain ⟨t', h1, h2⟩ := extensionUnitaryGainLoop_reverse O hO hnt (g.n + 1) none (fun v => decide (v ∈ t)) (fun _ => none) (fun _ => none)
    ht hlen hlt (by simp) (by omega)
  refine ⟨t', h1, ?_⟩
  rw [extensionUnitaryGain]
  simpa only [List.mem_reverse] using h2

/-- **C158**, `extensionUntilPrizeFeasible`. -/
theorem C158_until_feasible (O : FloatOps F) (hO : O.Strict) (g : Graph) (cost prize : Nat → Int) (hnt : NoTies O g cost prize) (r : Nat)
    (t : List Nat) (ht : IsTour g r t) (hlen : 4 ≤ t.length) (hlt : ∀ x ∈ t, x < g.n) (quota : Int) :
    ∃ t', extensionUntilPrizeFeasible O g t cost prize quota = .ok t' ∧
      extensionUntilPrizeFeasible O g t.reverse cost prize quota = .ok t'.reverse := by
  have := outsideCount_le g t
  have hp : tourPrize prize t.reverse = tourPrize prize t := by
    obtain ⟨m, rfl⟩ := ht.shape
    have e : (r :: (m ++ [r])).reverse = r :: (m.reverse ++ [r]) := by simp
    rw [tourPrize, tourPrize, e, dropLast_tour, dropLast_tour, prizeSum, prizeSum, List.map_cons, List.map_cons, List.map_reverse,
      List.sum_cons, List.sum_cons, List.sum_reverse]
  obtain ⟨t', h1, h2⟩ := extensionUntilLoop_reverse O hO hnt quota (g.n + 2) 0 true (tourPrize prize t) (fun v => decide (v ∈ t)) (fun _ => none)
    (fun _ => none) ht hlen hlt (by simp) (by omega)
  refine ⟨t', ?_, ?_⟩
  · rw [extensionUntilPrizeFeasible, totalPrizeOfTour_eq prize ht.ne_nil]
    exact h1
  · rw [extensionUntilPrizeFeasible, totalPrizeOfTour_eq prize ht.reversed.ne_nil, hp]
    simpa only [Res.ok_bind, List.mem_reverse] using h2

/-- **C158.** Without ties the result is determined by the cycle: two tours that have the same edges, whatever the starting points and directions (and
however short), give tours that have the same edges, so the same vertices, cost and prize. -/
theorem C158_same_cycle (O : FloatOps F) (hO : O.Strict) (g : Graph) (cost prize : Nat → Int) (hnt : NoTies O g cost prize) (r r' : Nat)
    (s t : List Nat) (hs : IsTour g r' s) (ht : IsTour g r t) (hst : SameCycle s t) (hlt : ∀ x ∈ t, x < g.n) (quota : Int) :
    (∃ t' s', extensionUnitaryGain O g t cost prize = .ok t' ∧ extensionUnitaryGain O g s cost prize = .ok s' ∧
      IsTour g r t' ∧ IsTour g r' s' ∧ SameCycle s' t' ∧
      (∀ x, x ∈ s' ↔ x ∈ t') ∧ walkCost g cost s' = walkCost g cost t' ∧ tourPrize prize s' = tourPrize prize t') ∧
    (∃ t' s', extensionUntilPrizeFeasible O g t cost prize quota = .ok t' ∧ extensionUntilPrizeFeasible O g s cost prize quota = .ok s' ∧
      IsTour g r t' ∧ IsTour g r' s' ∧ SameCycle s' t' ∧
      (∀ x, x ∈ s' ↔ x ∈ t') ∧ walkCost g cost s' = walkCost g cost t' ∧ tourPrize prize s' = tourPrize prize t') := by
  have := outsideCount_le g t
  have hmem := hst.mem_iff hs.two_le ht.two_le
  have hlts : ∀ x ∈ s, x < g.n := fun x hx => hlt x ((hmem x).1 hx)
  have hfun : (fun v => decide (v ∈ s)) = fun v => decide (v ∈ t) := by funext v; simp [hmem]
  constructor
  · obtain ⟨t', s', h1, h2, h3, h4, h5⟩ := extensionUnitaryGainLoop_same O hO hnt (g.n + 1) none (fun v => decide (v ∈ t)) (fun _ => none)
      (fun _ => none) hst hs.two_le ht.two_le hlt ht.walk (by simp) (by omega)
    have h1' : extensionUnitaryGain O g t cost prize = .ok t' := h1
    have h2' : extensionUnitaryGain O g s cost prize = .ok s' := by rw [extensionUnitaryGain, hfun]; exact h2
    obtain ⟨a, a1, a2, -⟩ := C17_gain_only_inserts O hO g cost prize t ht.ne_nil hlt ht.walk
    obtain ⟨b, b1, b2, -⟩ := C17_gain_only_inserts O hO g cost prize s hs.ne_nil hlts hs.walk
    rw [h1'] at a1; cases a1
    rw [h2'] at b1; cases b1
    exact ⟨t', s', h1', h2', a2.tour r ht, b2.tour r' hs, h3, h3.mem_iff h4 h5, h3.walkCost_eq g cost,
      h3.tourPrize_eq (b2.tour r' hs) (a2.tour r ht) prize⟩
  · obtain ⟨t', s', h1, h2, h3, h4, h5⟩ := extensionUntilLoop_same O hO hnt quota (g.n + 2) 0 true (tourPrize prize t) (fun v => decide (v ∈ t))
      (fun _ => none) (fun _ => none) hst hs.two_le ht.two_le hlt ht.walk (by simp) (by omega)
    have h1' : extensionUntilPrizeFeasible O g t cost prize quota = .ok t' := by
      rw [extensionUntilPrizeFeasible, totalPrizeOfTour_eq prize ht.ne_nil]; exact h1
    have h2' : extensionUntilPrizeFeasible O g s cost prize quota = .ok s' := by
      rw [extensionUntilPrizeFeasible, totalPrizeOfTour_eq prize hs.ne_nil, hst.tourPrize_eq hs ht, hfun]; exact h2
    obtain ⟨a, a1, a2, -⟩ := C17_until_feasible_only_inserts O hO g cost prize quota t ht.ne_nil hlt ht.walk
    obtain ⟨b, b1, b2, -⟩ := C17_until_feasible_only_inserts O hO g cost prize quota s hs.ne_nil hlts hs.walk
    rw [h1'] at a1; cases a1
    rw [h2'] at b1; cases b1
    exact ⟨t', s', h1', h2', a2.tour r ht, b2.tour r' hs, h3, h3.mem_iff h4 h5, h3.walkCost_eq g cost,
      h3.tourPrize_eq (b2.tour r' hs) (a2.tour r ht) prize⟩

/-- **C158.** Another starting point is such a pair of tours: the tour from `r` by `A` to `x` and by `B` back, and the tour that starts at `x`. -/
theorem C158_rotation (O : FloatOps F) (hO : O.Strict) (g : Graph) (cost prize : Nat → Int) (hnt : NoTies O g cost prize) (r x : Nat)
    (A B : List Nat) (ht : IsTour g r (r :: (A ++ x :: (B ++ [r])))) (hlt : ∀ y ∈ r :: (A ++ x :: (B ++ [r])), y < g.n) :
    ∃ t' s', extensionUnitaryGain O g (r :: (A ++ x :: (B ++ [r]))) cost prize = .ok t' ∧
      extensionUnitaryGain O g (x :: (B ++ r :: (A ++ [x]))) cost prize = .ok s' ∧
      IsTour g r t' ∧ IsTour g x s' ∧ SameCycle s' t' := by
  have hst := sameCycle_rotate r x A B
  have hs : IsTour g x (x :: (B ++ r :: (A ++ [x]))) := by
    refine ⟨⟨B ++ r :: A, by simp⟩, ?_, hst.isWalk ht.walk⟩
    have hn := ht.nodup
    have e1 : r :: (A ++ x :: (B ++ [r])) = r :: ((A ++ x :: B) ++ [r]) := by simp
    have e2 : x :: (B ++ r :: (A ++ [x])) = x :: ((B ++ r :: A) ++ [x]) := by simp
    rw [e1, dropLast_tour] at hn
    rw [e2, dropLast_tour]
    have hp : (x :: (B ++ r :: A)).Perm (r :: (A ++ x :: B)) := List.perm_append_comm (l₁ := x :: B) (l₂ := r :: A)
    exact hp.nodup_iff.2 hn
  obtain ⟨⟨t', s', h1, h2, h3, h4, h5, -⟩, -⟩ := C158_same_cycle O hO g cost prize hnt r x _ _ hs ht hst hlt 0
  exact ⟨t', s', h1, h2, h3, h4, h5⟩

/-- Vertex 3 is joined to all vertices of the triangle, vertex 4 to 1 and 3. -/
def exTied : Graph := ⟨5, [(0, 1), (1, 2), (2, 0), (3, 0), (3, 1), (3, 2), (4, 1), (4, 3)]⟩

/-- The costs: 3 has the same gain at the three edges of the triangle. -/
def exTiedCost (e : Nat) : Int := [4, 4, 4, 3, 3, 3, 3, 3].getD e 0

/-- The prizes. -/
def exTiedPrize (v : Nat) : Int := [1, 1, 1, 4, 8].getD v 0

/-- **C158.** With ties the direction matters, and so does the starting point: the tours have different vertices, and one call reaches the quota and the other does not. -/
theorem C158_ties :
    extensionUnitaryGain FloatOps.ieeeExact exTied [0, 1, 2, 0] exTiedCost exTiedPrize = .ok [0, 3, 4, 1, 2, 0] ∧
    extensionUnitaryGain FloatOps.ieeeExact exTied [0, 2, 1, 0] exTiedCost exTiedPrize = .ok [0, 3, 2, 1, 0] ∧
    extensionUnitaryGain FloatOps.ieeeExact exTied [2, 0, 1, 2] exTiedCost exTiedPrize = .ok [2, 3, 0, 1, 2] ∧
    extensionUntilPrizeFeasible FloatOps.ieeeExact exTied [0, 1, 2, 0] exTiedCost exTiedPrize 15 = .ok [0, 3, 4, 1, 2, 0] ∧
    extensionUntilPrizeFeasible FloatOps.ieeeExact exTied [0, 2, 1, 0] exTiedCost exTiedPrize 15 = .ok [0, 3, 2, 1, 0] ∧
    tourPrize exTiedPrize [0, 3, 4, 1, 2, 0] = 15 ∧ tourPrize exTiedPrize [0, 3, 2, 1, 0] = 7 := by
  decide +kernel

/-- The complete graph with six vertices. -/
def exComplete : Graph :=
  ⟨6, [(0, 1), (0, 2), (0, 3), (0, 4), (0, 5), (1, 2), (1, 3), (1, 4), (1, 5), (2, 3), (2, 4), (2, 5), (3, 4), (3, 5), (4, 5)]⟩

/-- Costs without ties. -/
def exCompleteCost (e : Nat) : Int := [5, 3, 18, 22, 13, 22, 19, 4, 7, 26, 5, 1, 14, 15, 4].getD e 0

/-- The prizes. -/
def exCompletePrize (v : Nat) : Int := [1, 4, 1, 2, 2, 2].getD v 0

/-- Other costs. -/
def exCompleteCost' (e : Nat) : Int := [6, 8, 3, 9, 8, 1, 4, 1, 9, 1, 4, 9, 8, 8, 2].getD e 0

/-- Other prizes. -/
def exCompletePrize' (v : Nat) : Int := [1, 5, 3, 1, 2, 3].getD v 0

/-- The condition of `NoTies` for a vertex and two edges of the edge list. -/
def NoTieAt (O : FloatOps F) (g : Graph) (cost prize : Nat → Int) (v : Nat) (e f : Nat × Nat) : Prop :=
  (Adj g e.1 v ∧ Adj g v e.2) ∧ (Adj g f.1 v ∧ Adj g v f.2) ∧ und e ≠ und f ∧
    O.lt O.zero (gainBetween O g cost prize v e.1 e.2) = true ∧ O.lt O.zero (gainBetween O g cost prize v f.1 f.2) = true →
  O.lt (gainBetween O g cost prize v e.1 e.2) (gainBetween O g cost prize v f.1 f.2) = true ∨
    O.lt (gainBetween O g cost prize v f.1 f.2) (gainBetween O g cost prize v e.1 e.2) = true

instance (O : FloatOps F) (g : Graph) (cost prize : Nat → Int) (v : Nat) (e f : Nat × Nat) : Decidable (NoTieAt O g cost prize v e f) := by
  unfold NoTieAt; infer_instance

theorem noTies_of_check {O : FloatOps F} {g : Graph} {cost prize : Nat → Int} (hg : g.WF)
    (h : ∀ v < g.n, ∀ e ∈ g.edges, ∀ f ∈ g.edges, NoTieAt O g cost prize v e f) : NoTies O g cost prize := by
  intro v a b c d h1 h2 h3 h4 h5 h6 h7 h8 p q
  have hv : v < g.n := by
    rcases h2 with h | h
    · exact (hg _ h).2
    · exact (hg _ h).1
  have hne : ∀ {x y z w : Nat}, (x = a ∧ y = b ∨ x = b ∧ y = a) → (z = c ∧ w = d ∨ z = d ∧ w = c) → und (x, y) ≠ und (z, w) := by
    intro x y z w e1 e2 he
    rw [und_eq_iff] at he
    grind
  rcases h1 with h1 | h1 <;> rcases h4 with h4 | h4
  · exact h v hv _ h1 _ h4 ⟨⟨h2, h3⟩, ⟨h5, h6⟩, hne (by simp) (by simp), p, q⟩
  · rw [gainBetween_comm O g cost prize v c d] at q ⊢
    exact h v hv _ h1 _ h4 ⟨⟨h2, h3⟩, ⟨h6.symm, h5.symm⟩, hne (by simp) (by simp), p, q⟩
  · rw [gainBetween_comm O g cost prize v a b] at p ⊢
    exact h v hv _ h1 _ h4 ⟨⟨h3.symm, h2.symm⟩, ⟨h5, h6⟩, hne (by simp) (by simp), p, q⟩
  · rw [gainBetween_comm O g cost prize v a b] at p ⊢
    rw [gainBetween_comm O g cost prize v c d] at q ⊢
    exact h v hv _ h1 _ h4 ⟨⟨h3.symm, h2.symm⟩, ⟨h6.symm, h5.symm⟩, hne (by simp) (by simp), p, q⟩

theorem exComplete_noTies : NoTies FloatOps.ieeeExact exComplete exCompleteCost exCompletePrize :=
  noTies_of_check (by decide) (by decide +kernel)

/-- **C158.** Collapse depends on the direction even without ties, and so does path extension: the tours have different costs. -/
theorem C158_other :
    NoTies FloatOps.ieeeExact exComplete exCompleteCost exCompletePrize ∧
    collapse exComplete [0, 1, 2, 3, 4, 0] exCompleteCost exCompletePrize 9 0 false (fun _ => exPick) = .ok [0, 1, 2, 5, 4, 0] ∧
    collapse exComplete [0, 4, 3, 2, 1, 0] exCompleteCost exCompletePrize 9 0 false (fun _ => exPick) = .ok [0, 4, 5, 1, 0] ∧
    walkCost exComplete exCompleteCost [0, 1, 2, 5, 4, 0] = 54 ∧ walkCost exComplete exCompleteCost [0, 4, 5, 1, 0] = 38 ∧
    pathExtension FloatOps.ieeeExact exComplete [0, 1, 2, 3, 0] exCompleteCost' exCompletePrize' 0 1 2 = .ok [0, 5, 4, 1, 2, 3, 0] ∧
    pathExtension FloatOps.ieeeExact exComplete [0, 3, 2, 1, 0] exCompleteCost' exCompletePrize' 0 1 2 = .ok [0, 3, 2, 5, 4, 1, 0] ∧
    walkCost exComplete exCompleteCost' [0, 5, 4, 1, 2, 3, 0] = 16 ∧ walkCost exComplete exCompleteCost' [0, 3, 2, 5, 4, 1, 0] = 22 :=
  ⟨exComplete_noTies, by decide +kernel⟩

/-- **C158.** The length is needed: a tour of two vertices is its own reverse, its extension is not. -/
theorem C158_two_vertices :
    NoTies FloatOps.ieeeExact ⟨3, [(0, 1), (1, 2), (2, 0)]⟩ (fun _ => 1) (fun v => v) ∧
    extensionUntilPrizeFeasible FloatOps.ieeeExact ⟨3, [(0, 1), (1, 2), (2, 0)]⟩ [0, 1, 0] (fun _ => 1) (fun v => v) 3 = .ok [0, 2, 1, 0] ∧
    [0, 2, 1, 0].reverse ≠ [0, 2, 1, 0] :=
  ⟨noTies_of_check (by decide) (by decide +kernel), by decide +kernel, by decide⟩

/-- The extension of a tour and of the reversed tour in a graph without ties: three vertices are inserted. -/
example : extensionUntilPrizeFeasible FloatOps.ieeeExact exComplete [0, 1, 3, 0] exCompleteCost exCompletePrize 12 =
      .ok [0, 1, 4, 2, 5, 3, 0] ∧
    extensionUntilPrizeFeasible FloatOps.ieeeExact exComplete [0, 3, 1, 0] exCompleteCost exCompletePrize 12 =
      .ok [0, 3, 5, 2, 4, 1, 0] := by decide +kernel

example := C158_until_feasible FloatOps.ieeeExact FloatOps.ieeeExact_strict exComplete exCompleteCost exCompletePrize exComplete_noTies 0
  [0, 1, 3, 0] ⟨⟨[1, 3], rfl⟩, by decide, by decide⟩ (by decide) (by decide) 12

example := C158_unitary_gain FloatOps.ieeeExact FloatOps.ieeeExact_strict exComplete exCompleteCost exCompletePrize exComplete_noTies 0
  [0, 1, 3, 0] ⟨⟨[1, 3], rfl⟩, by decide, by decide⟩ (by decide) (by decide)

/-- Another starting point. -/
example : extensionUnitaryGain FloatOps.ieeeExact exComplete [0, 1, 3, 0] exCompleteCost exCompletePrize = .ok [0, 1, 4, 2, 5, 3, 0] ∧
    extensionUnitaryGain FloatOps.ieeeExact exComplete [3, 0, 1, 3] exCompleteCost exCompletePrize = .ok [3, 0, 1, 4, 2, 5, 3] := by decide +kernel

example := C158_rotation FloatOps.ieeeExact FloatOps.ieeeExact_strict exComplete exCompleteCost exCompletePrize exComplete_noTies 0 3 [1] []
  ⟨⟨[1, 3], rfl⟩, by decide, by decide⟩ (by decide)

example := C158_same_cycle FloatOps.ieeeExact FloatOps.ieeeExact_strict exComplete exCompleteCost exCompletePrize exComplete_noTies 0 3
  [3, 1, 0, 3] [0, 1, 3, 0] ⟨⟨[1, 0], rfl⟩, by decide, by decide⟩ ⟨⟨[1, 3], rfl⟩, by decide, by decide⟩ (by unfold SameCycle; decide) (by decide) 12

/-- In the tied graph there is a tie. -/
example : ¬ NoTies FloatOps.ieeeExact exTied exTiedCost exTiedPrize := fun h => absurd
  (h 3 0 1 1 2 (by decide) (by decide) (by decide) (by decide) (by decide) (by decide) (by decide) (by decide) (by decide +kernel) (by decide +kernel))
  (by decide +kernel)

end Pctsp
