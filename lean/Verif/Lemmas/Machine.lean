import Verif.Model.Machine
import Verif.Lemmas.Compose
import Mathlib.Tactic.Linarith
import Mathlib.Tactic.Ring

/-! Helper lemmas: the functions with machine numbers agree with those with unbounded numbers if no value is too large. -/

namespace Pctsp

variable {F : Type}

/-- `x` is at most `k` times `B` in absolute value. -/
def WithinB (B : Int) (k : Nat) (x : Int) : Prop := -((k : Int) * B) ≤ x ∧ x ≤ (k : Int) * B

theorem WithinB.add {B : Int} {k l : Nat} {x y : Int} (h1 : WithinB B k x) (h2 : WithinB B l y) : WithinB B (k + l) (x + y) := by
  have : ((k + l : Nat) : Int) * B = (k : Int) * B + (l : Int) * B := by push_cast; ring
  refine ⟨?_, ?_⟩ <;> rw [this]
  · have := h1.1; have := h2.1; omega
  · have := h1.2; have := h2.2; omega

theorem WithinB.neg {B : Int} {k : Nat} {x : Int} (h : WithinB B k x) : WithinB B k (-x) := ⟨by have := h.2; omega, by have := h.1; omega⟩

theorem WithinB.sub {B : Int} {k l : Nat} {x y : Int} (h1 : WithinB B k x) (h2 : WithinB B l y) : WithinB B (k + l) (x - y) := by
  rw [Int.sub_eq_add_neg]; exact h1.add h2.neg

theorem WithinB.mono {B : Int} (hB : 0 ≤ B) {k l : Nat} (hkl : k ≤ l) {x : Int} (h : WithinB B k x) : WithinB B l x := by
  have : (k : Int) * B ≤ (l : Int) * B := Int.mul_le_mul_of_nonneg_right (by exact_mod_cast hkl) hB
  exact ⟨by have := h.1; omega, by have := h.2; omega⟩

theorem withinB_zero (B : Int) : WithinB B 0 0 := by simp [WithinB]

theorem withinB_one {B x : Int} (h : -B ≤ x ∧ x ≤ B) : WithinB B 1 x := by simpa [WithinB] using h

/-- Costs and prizes are so small that sums over two walks of `n + 3` vertices fit an `int`. -/
structure SmallValues (n : Nat) (cost prize : Nat → Int) (B : Int) : Prop where
  cost : ∀ e, -B ≤ cost e ∧ cost e ≤ B
  prize : ∀ v, -B ≤ prize v ∧ prize v ≤ B
  fits : 2 * ((n : Int) + 3) * B ≤ 2147483647

theorem SmallValues.nonneg {n : Nat} {cost prize : Nat → Int} {B : Int} (h : SmallValues n cost prize B) : 0 ≤ B := by
  have := h.cost 0; omega

theorem SmallValues.int32 {n : Nat} {cost prize : Nat → Int} {B : Int} (h : SmallValues n cost prize B) {k : Nat} {x : Int} (hx : WithinB B k x)
    (hk : k ≤ 2 * (n + 3)) : int32 x = .ok x := by
  have := hx.mono h.nonneg hk
  have e : ((2 * (n + 3) : Nat) : Int) * B = 2 * ((n : Int) + 3) * B := by push_cast; ring
  rw [WithinB, e] at this
  rw [Pctsp.int32, if_pos]
  have := h.fits
  omega

theorem sumM_ok {f : Nat → Int} {B : Int} (hf : ∀ x, -B ≤ f x ∧ f x ≤ B) (hI : ∀ k x, WithinB B k x → k ≤ m → int32 x = .ok x) (l : List Nat) (k : Nat) (s : Int)
    (hs : WithinB B k s) (hk : k + l.length ≤ m) :
    sumM f l s = .ok (l.foldl (fun c e => c + f e) s) ∧ WithinB B (k + l.length) (l.foldl (fun c e => c + f e) s) := by
  induction l generalizing k s with
  | nil => exact ⟨rfl, hs⟩
  | cons x l ih =>
    simp only [List.length_cons] at hk
    have h1 := hs.add (withinB_one (hf x))
    rw [sumM, hI _ _ h1 (by omega)]
    simp only [Res.ok_bind, List.foldl_cons, List.length_cons]
    have := ih (k + 1) _ h1 (by omega)
    rw [show k + (l.length + 1) = k + 1 + l.length by omega]
    exact this

section
variable {g : Graph} {cost prize : Nat → Int} {B : Int}

theorem totalPrizeM_eq (h : SmallValues g.n cost prize B) {l : List Nat} (hl : l.length ≤ g.n + 3) :
    totalPrizeM prize l = .ok (totalPrize prize l) ∧ WithinB B (g.n + 3) (totalPrize prize l) := by
  obtain ⟨h1, h2⟩ := sumM_ok (m := 2 * (g.n + 3)) h.prize (fun k x hx hk => h.int32 hx hk) l 0 0 (withinB_zero B) (by omega)
  exact ⟨h1, h2.mono h.nonneg (by omega)⟩

theorem getEdgesInWalk_length {l es : List Nat} (he : getEdgesInWalk g l = .ok es) : es.length = l.length - 1 := by
  induction l generalizing es with
  | nil => simp only [getEdgesInWalk, Res.ok.injEq] at he; subst he; rfl
  | cons u l ih =>
    cases l with
    | nil => simp only [getEdgesInWalk, Res.ok.injEq] at he; subst he; rfl
    | cons v l =>
      rw [getEdgesInWalk] at he
      obtain ⟨e, -, he⟩ := Res.bind_eq_ok.1 he
      cases e with
      | none => cases he
      | some e =>
        obtain ⟨es', h1, he⟩ := Res.bind_eq_ok.1 he
        cases he
        have := ih h1
        simp only [List.length_cons] at this ⊢
        omega

theorem totalCostM_eq (h : SmallValues g.n cost prize B) {l : List Nat} (hl : l.length ≤ g.n + 3) :
    totalCostM g cost l = totalCost g cost l ∧ ∀ c, totalCost g cost l = .ok c → WithinB B (g.n + 3) c := by
  rw [totalCostM, totalCost]
  cases he : getEdgesInWalk g l with
  | throw e => exact ⟨rfl, fun c hc => by cases hc⟩
  | ub s => exact ⟨rfl, fun c hc => by cases hc⟩
  | ok es =>
    have := getEdgesInWalk_length he
    obtain ⟨h1, h2⟩ := sumM_ok (m := 2 * (g.n + 3)) h.cost (fun k x hx hk => h.int32 hx hk) es 0 0 (withinB_zero B) (by omega)
    refine ⟨h1, fun c hc => ?_⟩
    obtain rfl : totalCostEdges cost es = c := by simpa using hc
    exact h2.mono h.nonneg (by omega)

theorem chooseLoopM_eq (h : SmallValues g.n cost prize B) (O : FloatOps F) {internal : List Nat} (hi : internal.length ≤ g.n + 3) (i : Int)
    (cands : List (List Nat)) (hc : ∀ p ∈ cands, p.length ≤ g.n + 3) (st : ArgminState F) :
    chooseLoopM O g cost prize internal i cands st = chooseLoop O g cost prize internal i cands st := by
  induction cands generalizing i st with
  | nil => rfl
  | cons ext rest ih =>
    have ih := fun i st => ih i (fun p hp => hc p (List.mem_cons_of_mem _ hp)) st
    obtain ⟨a1, a2⟩ := totalPrizeM_eq h hi
    obtain ⟨b1, b2⟩ := totalPrizeM_eq h (hc ext (by simp))
    obtain ⟨c1, c2⟩ := totalCostM_eq h hi
    obtain ⟨d1, d2⟩ := totalCostM_eq h (hc ext (by simp))
    have e1 := h.int32 (b2.sub a2) (by omega)
    rw [chooseLoopM, chooseLoop]
    simp only [a1, b1, Res.ok_bind, e1, c1, d1]
    split
    · cases hd : totalCost g cost ext with
      | throw e => rfl
      | ub s => rfl
      | ok x =>
        cases hy : totalCost g cost internal with
        | throw e => rfl
        | ub s => rfl
        | ok y =>
          simp only [Res.ok_bind, unitaryLossM, h.int32 ((d2 x hd).sub (c2 y hy)) (by omega), e1, unitaryLoss]
          exact ih _ _
    · exact ih _ _

theorem chooseExtensionPathM_eq (h : SmallValues g.n cost prize B) (O : FloatOps F) {internal : List Nat} (hi : internal.length ≤ g.n + 3)
    {cands : List (List Nat)} (hc : ∀ p ∈ cands, p.length ≤ g.n + 3) :
    chooseExtensionPathM O g cost prize cands internal = chooseExtensionPath O g cost prize cands internal := by
  rw [chooseExtensionPathM, chooseExtensionPath, chooseLoopM_eq h O hi _ _ hc]

theorem climb_length (parent : Nat → Nat) (fuel child : Nat) (path : List Nat) : (climb parent fuel child path).length ≤ path.length + fuel := by
  induction fuel generalizing child path with
  | zero => simp [climb]
  | succ fuel ih =>
    rw [climb]
    split
    · omega
    · have := ih (parent child) (parent child :: path)
      simp only [List.length_cons] at this
      omega

theorem pathInTree_length (parent : Nat → Nat) (n v : Nat) : (pathInTreeFromParents parent n v).length ≤ n + 2 := by
  have := climb_length parent (n + 1) v [v]
  simp only [List.length_cons, List.length_nil] at this
  rw [pathInTreeFromParents]
  omega

theorem bfsCandidatesM_eq (h : SmallValues g.n cost prize B) {tour internal : List Nat} (hi : internal.length ≤ g.n + 3) (vj : Nat)
    (marked : Nat → Bool) (parent : Nat → Nat) (nbrs : List Nat) :
    bfsCandidatesM g prize tour internal vj marked parent nbrs = .ok (bfsCandidates g prize tour internal vj marked parent nbrs) ∧
      ∀ p ∈ bfsCandidates g prize tour internal vj marked parent nbrs, p.length ≤ g.n + 3 := by
  induction nbrs with
  | nil => exact ⟨rfl, by simp [bfsCandidates]⟩
  | cons v rest ih =>
    have hl : (pathInTreeFromParents parent g.n v ++ [vj]).length ≤ g.n + 3 := by
      have := pathInTree_length parent g.n v
      simp only [List.length_append, List.length_cons, List.length_nil]
      omega
    rw [bfsCandidatesM, bfsCandidates, List.filterMap_cons]
    by_cases hv : v ∉ tour ∧ marked v = true
    · simp only [if_pos hv, (totalPrizeM_eq h hl).1, (totalPrizeM_eq h hi).1, Res.ok_bind, ih.1]
      by_cases hp : totalPrize prize (pathInTreeFromParents parent g.n v ++ [vj]) > totalPrize prize internal
      · simp only [if_pos hp]
        refine ⟨rfl, fun p hp => ?_⟩
        rcases List.mem_cons.1 hp with rfl | hp
        · exact hl
        · exact ih.2 p hp
      · simp only [if_neg hp]
        exact ⟨rfl, ih.2⟩
    · simp only [if_neg hv]
      exact ih

theorem externalCandidatesM_eq (h : SmallValues g.n cost prize B) {tour internal : List Nat} (hi : internal.length ≤ g.n + 3) (root : Nat) (depth : Int)
    (vi vj : Nat) :
    externalCandidatesM g prize tour root depth vi vj internal = externalCandidates g prize tour root depth vi vj internal ∧
      ∀ cs, externalCandidates g prize tour root depth vi vj internal = .ok cs → ∀ p ∈ cs, p.length ≤ g.n + 3 := by
  rw [externalCandidatesM, externalCandidates]
  cases hr : isInternalVertexOfWalk internal root with
  | throw e => exact ⟨rfl, fun cs hc => by cases hc⟩
  | ub e => exact ⟨rfl, fun cs hc => by cases hc⟩
  | ok b =>
    simp only [Res.ok_bind]
    by_cases hd : depth > 2 ∧ b = false
    · have h1 : ¬ (depth = 2 ∧ b = true) := by omega
      have h2 : ¬ depth = 2 := by omega
      simp only [if_pos hd, if_neg h1, if_neg h2]
      cases hb : breadthFirstSearch g vi (fun h => decide (h ∈ tour)) (fun _ => 0) (depth - 1) with
      | throw e => exact ⟨rfl, fun cs hc => by cases hc⟩
      | ub e => exact ⟨rfl, fun cs hc => by cases hc⟩
      | ok mp =>
        simp only [Res.ok_bind]
        cases hn : g.adjacentVertices vj with
        | throw e => exact ⟨rfl, fun cs hc => by cases hc⟩
        | ub e => exact ⟨rfl, fun cs hc => by cases hc⟩
        | ok nbrs =>
          simp only [Res.ok_bind]
          obtain ⟨k1, k2⟩ := bfsCandidatesM_eq h (tour := tour) hi vj mp.1 mp.2 nbrs
          refine ⟨k1, fun cs hc => ?_⟩
          obtain rfl := Res.ok.inj hc
          exact k2
    · rw [if_neg hd]
      refine ⟨rfl, fun cs hc => ?_⟩
      split at hc
      · obtain ⟨e, -, hc⟩ := Res.bind_eq_ok.1 hc
        cases e with
        | none => cases hc; simp
        | some e =>
          obtain ⟨e, -, hc⟩ := Res.bind_eq_ok.1 hc
          cases e with
          | none => cases hc; simp
          | some e => cases hc; simp
      · split at hc
        · obtain ⟨nbrs, -, hc⟩ := Res.bind_eq_ok.1 hc
          cases hc
          intro p hp
          obtain ⟨u, -, rfl⟩ := List.mem_map.1 hp
          simp
        · cases hc; simp

theorem subpathLoop_length {α : Type} (cycle : List α) (m pos : Nat) {l : List α} (h : subpathLoop cycle m pos = .ok l) : l.length = m := by
  induction m generalizing pos l with
  | zero => cases h; rfl
  | succ m ih =>
    rw [subpathLoop] at h
    generalize (if pos = cycle.length then 1 else pos) = q at h
    cases hv : cycle[q]? with
    | none => rw [hv] at h; cases h
    | some v =>
      rw [hv] at h
      obtain ⟨rest, h1, h⟩ := Res.bind_eq_ok.1 h
      cases h
      simp [ih _ h1]

theorem getSubpath_length {α : Type} {cycle : List α} {i j : Nat} (hj : j ≤ cycle.length) {l : List α} (h : getSubpathOfCycle cycle i j = .ok l) :
    l.length ≤ cycle.length + 1 := by
  rw [getSubpathOfCycle] at h
  have hle : (if ((j : Int) - i + 1) ≤ 0 then (cycle.length : Int) - i + j else (j : Int) - i + 1) ≤ cycle.length + 1 := by split <;> omega
  revert h hle
  generalize (if ((j : Int) - i + 1) ≤ 0 then (cycle.length : Int) - i + j else (j : Int) - i + 1) = m
  intro h hle
  by_cases h1 : m < 0
  · simp [h1] at h
  · by_cases h2 : i > cycle.length
    · simp [h1, h2] at h
    · simp only [h1, h2, if_false] at h
      have := subpathLoop_length _ _ _ h
      omega

theorem extensionEntryM_eq (h : SmallValues g.n cost prize B) (O : FloatOps F) {tour : List Nat} (ht : tour.length ≤ g.n + 1) (root step : Nat) (depth : Int)
    (i : Nat) : extensionEntryM O g tour cost prize root step depth i = extensionEntry O g tour cost prize root step depth i := by
  rw [extensionEntryM, extensionEntry]
  simp only
  cases hi : tour[i]? with
  | none => rfl
  | some vi =>
    cases hj : tour[(i + step) % (tour.length - 1)]? with
    | none => rfl
    | some vj =>
      simp only
      cases hs : getSubpathOfCycle tour i ((i + step) % (tour.length - 1)) with
      | throw e => rfl
      | ub e => rfl
      | ok internal =>
        have hlt := (List.getElem?_eq_some_iff.1 hj).1
        have hl := getSubpath_length (by omega) hs
        obtain ⟨k1, k2⟩ := externalCandidatesM_eq h (tour := tour) (internal := internal) (by omega) root depth vi vj
        simp only [Res.ok_bind, k1]
        cases hc : externalCandidates g prize tour root depth vi vj internal with
        | throw e => rfl
        | ub e => rfl
        | ok cs =>
          simp only [Res.ok_bind, chooseExtensionPathM_eq h O (by omega : internal.length ≤ g.n + 3) (k2 cs hc)]
          rfl

theorem findExtensionPathsM_eq (h : SmallValues g.n cost prize B) (O : FloatOps F) {tour : List Nat} (ht : tour.length ≤ g.n + 1) (root step : Nat)
    (depth : Int) : findExtensionPathsM O g tour cost prize root step depth = findExtensionPaths O g tour cost prize root step depth := by
  rw [findExtensionPathsM, findExtensionPaths]
  congr 1
  funext i
  exact extensionEntryM_eq h O ht root step depth i

end

end Pctsp
