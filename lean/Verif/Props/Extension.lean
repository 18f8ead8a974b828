import Verif.Lemmas.ExtensionLoop
import Verif.Props.Search

/-!
# Properties C10–C16: path extension
-/

namespace Pctsp

variable {F : Type}

/-! ## C10 -/

/-- `x` is the loss at the first position of smallest loss among the feasible positions of `l`. -/
def IsFirstArgmin (lt : F → F → Bool) (l : List (F × Bool)) (k : Nat) : Prop :=
  ∃ x, l[k]? = some (x, true) ∧ (∀ (j : Nat) y, l[j]? = some (y, true) → lt y x = false) ∧
    (∀ (j : Nat) y, j < k → l[j]? = some (y, true) → lt x y = true)

/-- C10: if no feasible loss is a NaN: `-1` iff nothing is feasible, otherwise the first position of smallest loss among the feasible ones. -/
theorem C10_index_of_smallest_loss (O : FloatOps F) (hO : O.Lawful) (loss : List (F × Bool))
    (hn : ∀ x ∈ loss, x.2 = true → O.Comparable x.1) :
    (indexOfSmallestLoss O loss = -1 ↔ ∀ x ∈ loss, x.2 = false) ∧
    ((∃ x ∈ loss, x.2 = true) → ∃ k : Nat, indexOfSmallestLoss O loss = k ∧ IsFirstArgmin O.lt loss k) := by
  have h2 : (∃ x ∈ loss, x.2 = true) → ∃ k : Nat, indexOfSmallestLoss O loss = k ∧ IsFirstArgmin O.lt loss k := by
    intro hex
    obtain ⟨k, x, a1, a2, a3, a4⟩ := smallestLossLoop_first hO 0 loss { found := false, value := O.zero, index := -1 } rfl hn hex
    exact ⟨k, by rw [indexOfSmallestLoss, a2]; simp, x, a1, a3, a4⟩
  refine ⟨⟨?_, ?_⟩, h2⟩
  · intro h x hx
    cases hb : x.2 with
    | false => rfl
    | true =>
      obtain ⟨k, hk, -⟩ := h2 ⟨x, hx, hb⟩
      rw [h] at hk; omega
  · intro h
    rcases smallestLossLoop_cases O 0 loss { found := false, value := O.zero, index := -1 } with ⟨h1, -⟩ | ⟨k, x, h1, -⟩
    · rw [indexOfSmallestLoss, h1]
    · have := h _ (List.mem_of_getElem? h1); simp at this

example := (C10_index_of_smallest_loss FloatOps.exact FloatOps.exact_lawful [(3, true), (1, false), (2, true), (2, true)]
  fun _ _ _ => FloatOps.rounded_comparable _ _).2 ⟨_, List.mem_cons_self, rfl⟩

/-- C10: among candidate paths (walks of the graph) the choice is `-1` iff no candidate has more prize than the internal path,
otherwise the first candidate of smallest unitary loss among those with more prize. -/
theorem C10_choose_extension_path (O : FloatOps F) (hO : O.Lawful) (g : Graph) (hg : g.WF) (cost prize : Nat → Int)
    (cands : List (List Nat)) (internal : List Nat) (hint : IsWalk g internal) (hc : ∀ p ∈ cands, IsWalk g p) :
    ∃ idx val, chooseExtensionPath O g cost prize cands internal = .ok (idx, val) ∧
      (idx = -1 ↔ ∀ p ∈ cands, prizeSum prize p ≤ prizeSum prize internal) ∧
      ((∃ p ∈ cands, prizeSum prize internal < prizeSum prize p) → ∃ k : Nat, idx = k ∧
        IsFirstArgmin O.lt (cands.map fun p =>
          (O.div (O.ofInt (walkCost g cost p - walkCost g cost internal)) (O.ofInt (prizeSum prize p - prizeSum prize internal)),
            decide (prizeSum prize internal < prizeSum prize p))) k) := by
  have hmap : (cands.map fun p =>
      (unitaryLoss O (prizeSum prize p) (prizeSum prize internal) (walkCost g cost p) (walkCost g cost internal),
        O.lt O.zero (O.ofInt (prizeSum prize p - prizeSum prize internal)))) = (cands.map fun p =>
          (O.div (O.ofInt (walkCost g cost p - walkCost g cost internal)) (O.ofInt (prizeSum prize p - prizeSum prize internal)),
            decide (prizeSum prize internal < prizeSum prize p))) := by
    apply List.map_congr_left
    intro p _
    have : O.lt O.zero (O.ofInt (prizeSum prize p - prizeSum prize internal)) =
        decide (prizeSum prize internal < prizeSum prize p) := by
      rw [Bool.eq_iff_iff, hO.sign, decide_eq_true_eq]; omega
    simp only [unitaryLoss, this]
  refine ⟨_, _, by rw [chooseExtensionPath, chooseLoop_eq O hg cost prize hint 0 cands hc, hmap]; rfl, ?_⟩
  have := C10_index_of_smallest_loss O hO (cands.map fun p =>
          (O.div (O.ofInt (walkCost g cost p - walkCost g cost internal)) (O.ofInt (prizeSum prize p - prizeSum prize internal)),
            decide (prizeSum prize internal < prizeSum prize p))) (fun x hx hx' => by
    obtain ⟨p, -, rfl⟩ := List.mem_map.1 hx
    exact hO.loss _ _ (by have := of_decide_eq_true hx'; omega))
  simp only [indexOfSmallestLoss] at this
  refine ⟨?_, ?_⟩
  · rw [this.1]; simp
  · rintro ⟨p, hp, hlt⟩
    refine this.2 ⟨_, List.mem_map.2 ⟨p, hp, rfl⟩, by simpa using hlt⟩

example : FloatOps.exact.Lawful := FloatOps.exact_lawful
example : indexOfSmallestLoss FloatOps.exact [(3, true), (1, false), (2, true), (2, true)] = 2 := by decide +kernel
example : IsWalk exGraph [0, 1, 2] ∧ ∀ p ∈ [[0, 3, 2], [0, 1, 3, 2]], IsWalk exGraph p := by decide

/-! ## C11 -/

/-- C11: with `first < last` exactly the segment `S` at positions `first..last` is replaced. -/
theorem C11_swap_inner {α : Type} [DecidableEq α] (A S B p : List α) (last : Nat) (hS : 2 ≤ S.length)
    (hl : last + 1 = A.length + S.length) :
    swapPathsInTour (A ++ S ++ B) p A.length last = .ok (A ++ p ++ B) := by
  rw [swapPathsInTour_eq, if_pos (by omega), if_pos (by simp; omega)]
  congr 1
  rw [List.append_assoc A S B, List.take_left, ← List.append_assoc, List.drop_left' (by simp; omega)]

example := C11_swap_inner [0] [1, 2, 3] [0] [1, 7, 8, 3] 3 (by decide) (by decide)

/-- C11: with `last < first` the segment from `first` over the root to `last` is replaced: the part of the path from the root on
comes first, the part before it last, and the tour is closed at the root. -/
theorem C11_swap_through_root {α : Type} [DecidableEq α] (r w u : α) (P Q rest X Z : List α)
    (hX : r ∉ X) (hp : r ≠ u) :
    swapPathsInTour (r :: (P ++ w :: (Q ++ u :: rest))) (u :: (X ++ r :: Z)) (P.length + Q.length + 2) (P.length + 1) =
      .ok (r :: (Z ++ Q ++ u :: (X ++ [r]))) := by
  have hall : ∀ y ∈ u :: X, decide (y ≠ r) = true := by
    intro y hy
    rcases List.mem_cons.1 hy with rfl | hy
    · simpa using Ne.symm hp
    · simp only [decide_eq_true_eq]; rintro rfl; exact hX hy
  have h1 : (u :: (X ++ r :: Z)).dropWhile (fun x => decide (x ≠ r)) = r :: Z := by
    rw [← List.cons_append, List.dropWhile_append_of_pos hall]; simp
  have h2 : (u :: (X ++ r :: Z)).takeWhile (fun x => decide (x ≠ r)) = u :: X := by
    rw [← List.cons_append, List.takeWhile_append_of_pos hall]; simp
  rw [swapPathsInTour_eq, if_neg (by omega)]
  show (if _ ≤ (r :: (P ++ w :: (Q ++ u :: rest))).length then _ else _) = _
  rw [if_pos (by simp; omega), if_pos (by omega), if_pos (by simp), h1, h2]
  have h3 : ((r :: (P ++ w :: (Q ++ u :: rest))).take (P.length + Q.length + 2)).drop (P.length + 1 + 1) = Q := by
    rw [show r :: (P ++ w :: (Q ++ u :: rest)) = (r :: (P ++ w :: Q)) ++ u :: rest by simp,
      List.take_left' (by simp; omega), show r :: (P ++ w :: Q) = (r :: (P ++ [w])) ++ Q by simp]
    exact List.drop_left' (by simp)
  rw [h3]; simp

example := C11_swap_through_root 0 1 3 [] [2] [0] [5] [6, 1] (by decide) (by decide)

/-- C11: the same for all indices `last < first`, also when the segment ends at the root or the path starts there. -/
theorem C11_swap_wraps {α : Type} [DecidableEq α] (r : α) (t X Z : List α) (hX : r ∉ X) (first last : Nat) (h1 : last < first)
    (h2 : first ≤ t.length + 1) :
    swapPathsInTour (r :: t) (X ++ r :: Z) first last = .ok (r :: (Z ++ ((r :: t).take first).drop (last + 1) ++ X ++ [r])) := by
  have hall : ∀ y ∈ X, decide (y ≠ r) = true := by
    intro y hy
    simp only [decide_eq_true_eq]; rintro rfl; exact hX hy
  have h3 : (X ++ r :: Z).dropWhile (fun x => decide (x ≠ r)) = r :: Z := by
    rw [List.dropWhile_append_of_pos hall]; simp
  have h4 : (X ++ r :: Z).takeWhile (fun x => decide (x ≠ r)) = X := by
    rw [List.takeWhile_append_of_pos hall]; simp
  rw [swapPathsInTour_eq, if_neg (by omega)]
  show (if _ ≤ (r :: t).length then _ else _) = _
  rw [if_pos (by simpa using h2), if_pos h1, if_pos (by simp), h3, h4]
  simp

example := C11_swap_wraps 0 [1, 2, 3, 0] [3, 5] [6, 1] (by decide) 3 1 (by decide) (by decide)

/-- C11: the call is undefined exactly for indices out of range, for equal indices, for an empty tour, and for a wrapping path
without the first vertex of the tour; it never throws. -/
theorem C11_swap_undefined {α : Type} [DecidableEq α] (t p : List α) (first last : Nat) :
    ((swapPathsInTour t p first last).isUb = true ↔
      (first < last ∧ t.length ≤ last) ∨ (first = last) ∨ (last < first ∧ (t.length < first ∨ ∀ r ∈ t.head?, r ∉ p))) ∧
    ((swapPathsInTour t p first last).isUb = false → (swapPathsInTour t p first last).isOk = true) := by
  rw [swapPathsInTour_eq]
  by_cases h1 : first < last
  · by_cases h2 : last < t.length
    · simp only [h1, h2, if_true, Res.isUb, Res.isOk]
      simp; omega
    · simp only [h1, h2, if_true, if_false, Res.isUb, Res.isOk]
      simp; omega
  · simp only [h1, if_false]
    cases t with
    | nil => simp [Res.isUb]; omega
    | cons r t =>
      simp only [List.head?_cons, Option.mem_some_iff]
      by_cases h2 : first ≤ (r :: t).length
      · by_cases h3 : last < first
        · by_cases h4 : r ∈ p
          · simp only [h2, h3, h4, if_true, Res.isUb, Res.isOk]
            simp [h4] at h2 ⊢; omega
          · simp only [h2, h3, h4, if_true, if_false, Res.isUb, Res.isOk]
            simp [h4]
        · simp only [h2, h3, if_true, if_false, Res.isUb, Res.isOk]
          simp; omega
      · simp only [h2, if_false, Res.isUb, Res.isOk]
        simp at h2 ⊢; omega

example : swapPathsInTour [0, 1, 2, 3, 0] [1, 7, 8, 3] 1 3 = .ok [0, 1, 7, 8, 3, 0] := by decide
example : swapPathsInTour [0, 1, 2, 3, 0] [3, 0, 1] 3 1 = .ok [0, 1, 2, 3, 0] := by decide
example : (swapPathsInTour [0, 1, 2, 3, 0] [3, 0, 1] 3 6).isUb = true := by decide

/-! ## C12 -/

/-- C12: for non-negative prizes and a positive step, `pathExtension` returns normally, the result is a simple closed tour from
the same root, and it is the input or has more prize and at least three vertices. -/
theorem C12_path_extension_tour (O : FloatOps F) (hO : O.SignSound) (g : Graph) (hg : g.WF) (r : Nat) (t : List Nat)
    (ht : IsTour g r t) (cost prize : Nat → Int) (hp : ∀ v, 0 ≤ prize v) (step depth : Int) (hs : 1 ≤ step) :
    ∃ t', pathExtension O g t cost prize r step depth = .ok t' ∧ IsTour g r t' ∧
      tourPrize prize t ≤ tourPrize prize t' ∧ (t' ≠ t → tourPrize prize t < tourPrize prize t' ∧ 4 ≤ t'.length) := by
  obtain ⟨t', h1, h2, h3⟩ := pathExtensionLoop_spec O hO hg cost prize hp step depth hs g.n true none t ht
  refine ⟨t', h1, h2, ?_, ?_⟩
  · rcases h3 with rfl | ⟨h3, -⟩ <;> omega
  · intro hne; exact ⟨(h3.resolve_left hne).1, (h3.resolve_left hne).2.2⟩

/-- C12: the same for the unitary loss extension. -/
theorem C12_extension_unitary_loss_tour (O : FloatOps F) (hO : O.SignSound) (g : Graph) (hg : g.WF) (r : Nat) (t : List Nat)
    (ht : IsTour g r t) (cost prize : Nat → Int) (hp : ∀ v, 0 ≤ prize v) :
    ∃ t', extensionUnitaryLoss O g t cost prize r = .ok t' ∧ IsTour g r t' ∧
      tourPrize prize t ≤ tourPrize prize t' ∧ (t' ≠ t → tourPrize prize t < tourPrize prize t' ∧ 4 ≤ t'.length) :=
  C12_path_extension_tour O hO g hg r t ht cost prize hp 1 2 (by decide)

/-- A square with two outside vertices. -/
def extGraph : Graph := { n := 6, edges := [(0, 1), (1, 2), (2, 3), (3, 0), (1, 4), (4, 2), (4, 5), (5, 3)] }

theorem extGraph_tour : IsTour extGraph 0 [0, 1, 2, 3, 0] := ⟨⟨[1, 2, 3], rfl⟩, by decide, by decide⟩

example : FloatOps.exact.SignSound := FloatOps.exact_lawful.signSound
example : extGraph.WF ∧ pathExtension FloatOps.exact extGraph [0, 1, 2, 3, 0] (fun _ => 1) (fun _ => 1) 0 1 2
    = .ok [0, 1, 4, 2, 3, 0] := by decide +kernel
example : pathExtension FloatOps.exact extGraph [0, 1, 2, 3, 0] (fun _ => 1) (fun _ => 1) 0 2 3
    = .ok [0, 1, 4, 5, 3, 0] := by decide +kernel

/-! ## C13 -/

/-- The claim that `pathExtension` is safe for all prizes. -/
def PathExtensionSafe : Prop :=
  ∀ (g : Graph) (r : Nat) (t : List Nat) (cost prize : Nat → Int) (step depth : Int), g.WF → IsTour g r t → 1 ≤ step →
    (pathExtension FloatOps.exact g t cost prize r step depth).isUb = false

/-- C13: with a negative prize `pathExtension` advances an iterator past the end of the tour. -/
theorem C13_negative_prize_undefined : ¬ PathExtensionSafe := by
  intro h
  have := h { n := 4, edges := [(0, 1), (1, 2), (2, 3), (3, 0), (0, 2)] } 0 [0, 1, 2, 3, 0] (fun _ => 1)
    (fun v => if v = 1 then -1 else 0) 3 2 (by decide) ⟨⟨[1, 2, 3], rfl⟩, by decide, by decide⟩ (by decide)
  revert this
  decide +kernel

/-- C13: with step 0 every tour with at least one edge makes the function compare iterators out of range. -/
theorem C13_zero_step_undefined (O : FloatOps F) (g : Graph) (hn : 0 < g.n) (t : List Nat) (ht : 2 ≤ t.length) (r : Nat)
    (cost prize : Nat → Int) (depth : Int) : (pathExtension O g t cost prize r 0 depth).isUb = true := by
  obtain ⟨n, hn'⟩ : ∃ n, g.n = n + 1 := ⟨g.n - 1, by omega⟩
  obtain ⟨a, b, t, rfl⟩ : ∃ a b t', t = a :: b :: t' := by
    match t, ht with
    | a :: b :: t', _ => exact ⟨a, b, t', rfl⟩
  rw [pathExtension, hn', pathExtensionLoop, if_neg (by simp)]
  have hfit : stepFits 0 (a :: b :: t) = true := by rw [stepFits_iff (by simp)]; simp
  rw [hfit, if_neg (by simp)]
  have hentry : extensionEntry O g (a :: b :: t) cost prize r 0 depth 0 = .ub "isInternalVertexOfWalk: iterator range" := by
    have : getSubpathOfCycle (a :: b :: t) 0 0 = .ok [a] := by
      rw [getSubpath_inner _ 0 0 (Nat.le_refl _) (by simp)]; rfl
    simp [extensionEntry, this, externalCandidates, isInternalVertexOfWalk]
  have : findExtensionPaths O g (a :: b :: t) cost prize r (0 : Int).toNat depth = .ub "isInternalVertexOfWalk: iterator range" := by
    have e : List.range ((a :: b :: t).length - 1) = 0 :: (List.range t.length).map Nat.succ := by
      rw [show (a :: b :: t).length - 1 = t.length + 1 by simp, List.range_succ_eq_map]
    rw [findExtensionPaths, e, mapRes]
    show (extensionEntry O g (a :: b :: t) cost prize r 0 depth 0 >>= _) = _
    rw [hentry]; rfl
  rw [this]; rfl

example : (0 : Nat) < exGraph.n ∧ 2 ≤ [0, 1, 2, 0].length := by decide

/-! ## C14 -/

/-- C14: the result is reached by at most as many replacements as the graph has vertices. -/
theorem C14_rounds (O : FloatOps F) (hO : O.SignSound) (g : Graph) (hg : g.WF) (r : Nat) (t : List Nat)
    (ht : IsTour g r t) (cost prize : Nat → Int) (hp : ∀ v, 0 ≤ prize v) (step depth : Int) (hs : 1 ≤ step) :
    ∃ t' k, pathExtension O g t cost prize r step depth = .ok t' ∧ k ≤ g.n ∧ Replacements g prize step depth k t t' :=
  pathExtensionLoop_rounds O hO hg cost prize hp step depth hs g.n true none t ht

/-- C14: with a depth limit below 2 the tour is returned unchanged, whatever the prizes. -/
theorem C14_shallow_identity (O : FloatOps F) (hO : O.SignSound) (g : Graph) (hg : g.WF) (r : Nat) (t : List Nat)
    (ht : IsTour g r t) (cost prize : Nat → Int) (step depth : Int) (hs : 1 ≤ step) (hd : depth < 2) :
    pathExtension O g t cost prize r step depth = .ok t :=
  pathExtensionLoop_shallow O hO hg cost prize step depth hs hd g.n true none t ht

/-- C14: if the step is at least the number of edges of the list, or negative, any non-empty list is returned unchanged. -/
theorem C14_large_step_identity (O : FloatOps F) (g : Graph) (r : Nat) (t : List Nat) (ht : t ≠ [])
    (cost prize : Nat → Int) (step depth : Int) (hs : step < 0 ∨ (t.length : Int) ≤ step + 1) :
    pathExtension O g t cost prize r step depth = .ok t := by
  rw [pathExtension]
  cases g.n with
  | zero => rfl
  | succ n =>
    have h1 : 1 ≤ t.length := List.length_pos_iff.2 ht
    have : stepFits step t = false := by
      cases h : stepFits step t with
      | false => rfl
      | true => have := (stepFits_iff ht).1 h; omega
    rw [pathExtensionLoop, if_neg ht, if_pos this]

/-- C14: if no segment of `step` edges has an external path with more prize, the tour is returned unchanged. -/
theorem C14_no_path_identity (O : FloatOps F) (hO : O.SignSound) (g : Graph) (hg : g.WF) (r : Nat) (t : List Nat)
    (ht : IsTour g r t) (cost prize : Nat → Int) (hp : ∀ v, 0 ≤ prize v) (step depth : Int) (hs : 1 ≤ step)
    (hno : ∀ A u Y w B X, t = A ++ u :: (Y ++ w :: B) → (Y.length : Int) + 1 = step → IsWalk g (u :: (X ++ [w])) → X ≠ [] →
      X.Nodup → (∀ y ∈ X, y ∉ t) → (X.length : Int) ≤ depth - 1 → prizeSum prize X ≤ prizeSum prize Y) :
    pathExtension O g t cost prize r step depth = .ok t := by
  obtain ⟨t', h1, h2, h3⟩ := pathExtensionLoop_spec O hO hg cost prize hp step depth hs g.n true none t ht
  rcases h3 with rfl | ⟨-, ⟨A, u, Y, w, B, X, q1, q2, q3, q4, q5, q6, q7, q8⟩, -⟩
  · exact h1
  · have := hno A u Y w B X q1 (by omega) q3 q4 q5 q6 q7
    omega

/-- C14: an empty tour: the unsigned arithmetic of the guard lets it pass for every step but `-1`, and a vector of negative length
is requested. -/
theorem C14_empty_tour_throws (O : FloatOps F) (g : Graph) (hn : 0 < g.n) (r : Nat) (cost prize : Nat → Int) (step depth : Int)
    (hs : step ≠ -1) : pathExtension O g [] cost prize r step depth = .throw .lengthError := by
  rw [pathExtension]
  cases h : g.n with
  | zero => omega
  | succ n => simp [pathExtensionLoop, hs]

/-- All vertices are on the tour, so nothing can be inserted. -/
example : pathExtension FloatOps.exact { n := 3, edges := [(0, 1), (1, 2), (2, 0)] } [0, 1, 2, 0] (fun _ => 1) (fun _ => 1) 0 1 2
    = .ok [0, 1, 2, 0] := by decide +kernel

/-! ## C15 -/

/-- C15: for all prizes, also negative ones, extending until feasible keeps a simple closed tour from the root and never lowers
the prize; the result is the input or has at least three vertices. -/
theorem C15_until_feasible_tour (O : FloatOps F) (hO : O.SignSound) (g : Graph) (hg : g.WF) (r : Nat) (t : List Nat)
    (ht : IsTour g r t) (cost prize : Nat → Int) (quota step depth : Int) (hs : 1 ≤ step) :
    ∃ t', pathExtensionUntilPrizeFeasible O g t cost prize r quota step depth = .ok t' ∧ IsTour g r t' ∧
      tourPrize prize t ≤ tourPrize prize t' ∧ (t' ≠ t → tourPrize prize t < tourPrize prize t' ∧ 4 ≤ t'.length) := by
  rw [pathExtensionUntilPrizeFeasible, totalPrizeOfTour_eq prize ht.ne_nil]
  simp only [Res.ok_bind]
  split
  · obtain ⟨t', h1, h2, h3, -⟩ := pathExtensionUntilLoop_spec O hO hg cost prize step depth hs g.n t ht
    refine ⟨t', h1, h2, ?_, ?_⟩
    · rcases h3 with rfl | ⟨h3, -⟩ <;> omega
    · intro hne; exact h3.resolve_left hne
  · exact ⟨t, rfl, ht, Int.le_refl _, fun h => absurd rfl h⟩

/-- A run through the root with a negative prize, the input on which `pathExtension` is undefined. -/
example : pathExtensionUntilPrizeFeasible FloatOps.exact { n := 4, edges := [(0, 1), (1, 2), (2, 3), (3, 0), (0, 2)] }
    [0, 1, 2, 3, 0] (fun _ => 1) (fun v => if v = 1 then -1 else 0) 0 5 3 2 = .ok [0, 2, 3, 0] := by decide +kernel

/-! ## C16 -/

/-- `t` is `s` with one vertex inserted. -/
def InsertStep (s t : List Nat) : Prop := ∃ A B x, s = A ++ B ∧ t = A ++ x :: B

/-- The documented behaviour for step 1 and depth 2 (every round inserts one vertex): the last insertion was made while the tour
was not yet prize feasible. -/
def StopsAtQuota : Prop :=
  ∀ (g : Graph) (r : Nat) (t : List Nat) (cost prize : Nat → Int) (quota : Int) (t' : List Nat), g.WF → IsTour g r t →
    (∀ v, 0 < prize v) → pathExtensionUntilPrizeFeasible FloatOps.exact g t cost prize r quota 1 2 = .ok t' →
    t' = t ∨ ∃ s, InsertStep s t' ∧ tourPrize prize s < quota

/-- C16: the documented behaviour is false: the tour is prize feasible after one insertion and a second one is made. -/
theorem C16_does_not_stop_at_quota : ¬ StopsAtQuota := by
  intro h
  have := h { n := 5, edges := [(0, 1), (1, 2), (2, 0), (3, 0), (3, 1), (4, 1), (4, 2)] } 0 [0, 1, 2, 0] (fun _ => 1)
    (fun _ => 1) 4 [0, 3, 1, 4, 2, 0] (by decide) ⟨⟨[1, 2], rfl⟩, by decide, by decide⟩ (by intro v; decide) (by decide +kernel)
  rcases this with h | ⟨s, ⟨A, B, x, rfl, h2⟩, h3⟩
  · simp at h
  · have hl := congrArg List.length h2
    simp at hl
    have : tourPrize (fun _ => 1) (A ++ B) = ((A ++ B).dropLast.length : Int) := by
      simp only [tourPrize, prizeSum]
      generalize (A ++ B).dropLast = l
      induction l with
      | nil => rfl
      | cons a l ih => simp; omega
    rw [this] at h3
    simp at h3
    omega

/-- C16: exactly what happens: the quota only decides whether the function does anything at all. -/
theorem C16_quota_only_guards (O : FloatOps F) (g : Graph) (t : List Nat) (cost prize : Nat → Int) (r : Nat)
    (q q' step depth : Int) (h1 : tourPrize prize t < q) (h2 : tourPrize prize t < q') :
    pathExtensionUntilPrizeFeasible O g t cost prize r q step depth =
      pathExtensionUntilPrizeFeasible O g t cost prize r q' step depth := by
  cases t with
  | nil => rfl
  | cons a t =>
    simp only [pathExtensionUntilPrizeFeasible, totalPrizeOfTour_eq prize (List.cons_ne_nil a t), Res.ok_bind, h1, h2, if_true]

/-- C16: a tour that is already feasible is left untouched (any non-empty list). -/
theorem C16_feasible_untouched (O : FloatOps F) (g : Graph) (t : List Nat) (ht : t ≠ []) (cost prize : Nat → Int) (r : Nat)
    (q step depth : Int) (h : q ≤ tourPrize prize t) :
    pathExtensionUntilPrizeFeasible O g t cost prize r q step depth = .ok t := by
  have : ¬ (tourPrize prize t < q) := by omega
  simp only [pathExtensionUntilPrizeFeasible, totalPrizeOfTour_eq prize ht, Res.ok_bind, this, if_false, Res.pure_eq]

/-- C16, what holds in terms of the graph: when the function stops on an infeasible tour then no segment of `step` edges can be replaced by a
detour over one outside vertex of larger prize, or the tour has at most `step` edges, or `num_vertices` extensions were
made (each of them raised the prize by at least 1). -/
theorem C16_exit_no_detour (O : FloatOps F) (hO : O.Lawful) (g : Graph) (hg : g.WF) (r : Nat) (t : List Nat)
    (ht : IsTour g r t) (cost prize : Nat → Int) (quota step depth : Int) (hs : 1 ≤ step) (hd : 2 ≤ depth) (t' : List Nat)
    (h : pathExtensionUntilPrizeFeasible O g t cost prize r quota step depth = .ok t') (hq : tourPrize prize t' < quota) :
    (t'.length : Int) ≤ step + 1 ∨ tourPrize prize t + g.n ≤ tourPrize prize t' ∨
      ∀ A u Y w B x, t' = A ++ u :: (Y ++ w :: B) → (Y.length : Int) + 1 = step → x ∉ t' → Adj g u x → Adj g x w →
        prize x ≤ prizeSum prize Y := by
  have hO1 := hO.signSound
  obtain ⟨t1, h1, -, h2, -⟩ := C15_until_feasible_tour O hO1 g hg r t ht cost prize quota step depth hs
  rw [h] at h1
  obtain rfl : t' = t1 := by simpa using h1
  have hlt : tourPrize prize t < quota := by omega
  rw [pathExtensionUntilPrizeFeasible, totalPrizeOfTour_eq prize ht.ne_nil] at h
  simp only [Res.ok_bind, hlt, if_true] at h
  obtain ⟨t2, r1, -, -, r3⟩ := pathExtensionUntilLoop_spec O hO1 hg cost prize step depth hs g.n t ht
  rw [h] at r1
  obtain rfl : t' = t2 := by simpa using r1
  rcases r3 with r3 | r3 | r3
  · exact Or.inl r3
  · exact Or.inr (Or.inl r3)
  · right; right
    intro A u Y w B x q1 q2 q3 q4 q5
    have := r3 hd (fun d hd => (hO.sign d).2 hd)
    by_contra hcon
    exact this ⟨A, u, Y, w, B, x, q1, by omega, q3, q4, q5, by omega⟩

example : ∃ t', pathExtensionUntilPrizeFeasible FloatOps.exact extGraph [0, 1, 2, 3, 0] (fun _ => 1) (fun _ => 1) 0 20 1 2
    = .ok t' ∧ tourPrize (fun _ => 1) t' < 20 := ⟨[0, 1, 4, 2, 3, 0], by decide +kernel, by decide⟩

example := C12_path_extension_tour FloatOps.exact FloatOps.exact_lawful.signSound extGraph (by decide) 0 _ extGraph_tour (fun _ => 1) (fun _ => 1)
  (fun _ => by decide) 2 3 (by decide)
example := C12_extension_unitary_loss_tour FloatOps.exact FloatOps.exact_lawful.signSound extGraph (by decide) 0 _ extGraph_tour (fun _ => 1) (fun _ => 1)
  (fun _ => by decide)
example := C14_rounds FloatOps.exact FloatOps.exact_lawful.signSound extGraph (by decide) 0 _ extGraph_tour (fun _ => 1) (fun _ => 1)
  (fun _ => by decide) 2 3 (by decide)
example := C14_shallow_identity FloatOps.exact FloatOps.exact_lawful.signSound extGraph (by decide) 0 _ extGraph_tour (fun _ => 1) (fun _ => 1) 1 1
  (by decide) (by decide)
example := C14_large_step_identity FloatOps.exact extGraph 0 [0, 1, 2, 3, 0] (by decide) (fun _ => 1) (fun _ => 1) 4 2 (by decide)
example := C14_no_path_identity FloatOps.exact FloatOps.exact_lawful.signSound { n := 3, edges := [(0, 1), (1, 2), (2, 0)] } (by decide) 0 [0, 1, 2, 0]
  ⟨⟨[1, 2], rfl⟩, by decide, by decide⟩ (fun _ => 1) (fun _ => 1) (fun _ => by decide) 1 3 (by decide) (by
    intro A u Y w B X _ _ hw hX _ hn
    obtain ⟨x, X, rfl⟩ := List.exists_cons_of_ne_nil hX
    have h1 := hw (u, x) (by simp [consec])
    have h2 := hn x (by simp)
    revert h1; simp only [Adj]; simp at h2 ⊢; omega)
example := C16_quota_only_guards FloatOps.exact extGraph [0, 1, 2, 3, 0] (fun _ => 1) (fun _ => 1) 0 5 20 1 2 (by decide) (by decide)
example := C16_feasible_untouched FloatOps.exact extGraph [0, 1, 2, 3, 0] (by decide) (fun _ => 1) (fun _ => 1) 0 4 1 2 (by decide)

end Pctsp
