import Verif.Lemmas.Repeats

/-! Helper lemmas: the heuristics on graphs in which edges are listed several times, continued. -/

namespace Pctsp

variable {F : Type} {g h : Graph} {cost cost' : Nat → Int}

/-! ### The choice of an extension -/

/-- `chooseLoop` with the path instead of its position. -/
def choosePath (O : FloatOps F) (g : Graph) (cost prize : Nat → Int) (internal : List Nat) :
    List (List Nat) → Option (List Nat) × F → Res (Option (List Nat) × F)
  | [], st => .ok st
  | ext :: rest, st =>
    if O.lt O.zero (O.ofInt (totalPrize prize ext - totalPrize prize internal)) then do
      let externalCost ← totalCost g cost ext
      let internalCost ← totalCost g cost internal
      let loss := unitaryLoss O (totalPrize prize ext) (totalPrize prize internal) externalCost internalCost
      choosePath O g cost prize internal rest (if O.lt loss st.2 || !st.1.isSome then (some ext, loss) else st)
    else choosePath O g cost prize internal rest st

/-- The state of `chooseLoop` for a state of `choosePath`: `full` are all candidates. -/
structure ChoiceState (full : List (List Nat)) (st : ArgminState F) (sp : Option (List Nat) × F) : Prop where
  value : st.value = sp.2
  found : st.found = sp.1.isSome
  empty : sp.1 = none → st.index = -1
  path : ∀ p, sp.1 = some p → 0 ≤ st.index ∧ full[st.index.toNat]? = some p

theorem choosePath_spec (O : FloatOps F) (g : Graph) (cost prize : Nat → Int) (internal : List Nat) (full : List (List Nat)) (pre l : List (List Nat))
    (hfull : full = pre ++ l) (st : ArgminState F) (sp : Option (List Nat) × F) (hst : ChoiceState full st sp) :
    (∃ x, chooseLoop O g cost prize internal pre.length l st = .ub x ∧ choosePath O g cost prize internal l sp = .ub x) ∨
      (∃ x, chooseLoop O g cost prize internal pre.length l st = .throw x ∧ choosePath O g cost prize internal l sp = .throw x) ∨
      ∃ st' sp', chooseLoop O g cost prize internal pre.length l st = .ok st' ∧ choosePath O g cost prize internal l sp = .ok sp' ∧
        ChoiceState full st' sp' := by
  induction l generalizing pre st sp with
  | nil => exact Or.inr (Or.inr ⟨st, sp, rfl, rfl, hst⟩)
  | cons ext l ih =>
    rw [chooseLoop, choosePath]
    have hlen : ((pre.length : Int) + 1) = ((pre ++ [ext]).length : Nat) := by simp
    rw [hlen]
    split
    · cases h1 : totalCost g cost ext with
      | ub x => exact Or.inl ⟨x, rfl, rfl⟩
      | throw x => exact Or.inr (Or.inl ⟨x, rfl, rfl⟩)
      | ok ec =>
        cases h2 : totalCost g cost internal with
        | ub x => exact Or.inl ⟨x, rfl, rfl⟩
        | throw x => exact Or.inr (Or.inl ⟨x, rfl, rfl⟩)
        | ok ic =>
          simp only [Res.ok_bind]
          refine ih (pre ++ [ext]) (by rw [hfull]; simp) _ _ ?_
          rw [hst.value, hst.found]
          split
          · refine ⟨rfl, rfl, (fun h => by cases h), fun p hp => ?_⟩
            cases hp
            refine ⟨by simp, ?_⟩
            simp [hfull]
          · exact hst
    · exact ih (pre ++ [ext]) (by rw [hfull]; simp) st sp hst

theorem choosePath_newFrom {O : FloatOps F} (hO : O.Strict) (g : Graph) (cost prize : Nat → Int) (internal : List Nat) (l S : List (List Nat))
    (st : Option (List Nat) × F)
    (hS : ∀ x ∈ S, O.lt O.zero (O.ofInt (totalPrize prize x - totalPrize prize internal)) = true →
      ∃ ec ic, totalCost g cost x = .ok ec ∧ totalCost g cost internal = .ok ic ∧ st.1.isSome = true ∧
        O.lt (unitaryLoss O (totalPrize prize x) (totalPrize prize internal) ec ic) st.2 = false) :
    choosePath O g cost prize internal (newFrom S l) st = choosePath O g cost prize internal l st := by
  induction l generalizing S st with
  | nil => rfl
  | cons ext l ih =>
    rw [newFrom]
    by_cases hx : ext ∈ S
    · rw [if_pos hx, choosePath, ih S st hS]
      split
      · rename_i hpos
        obtain ⟨ec, ic, h1, h2, h3, h4⟩ := hS ext hx hpos
        rw [h1, h2]
        simp only [Res.ok_bind]
        rw [h4, h3]
        rfl
      · rfl
    · rw [if_neg hx, choosePath, choosePath]
      split
      · rename_i hpos
        cases h1 : totalCost g cost ext with
        | ub x => rfl
        | throw x => rfl
        | ok ec =>
          cases h2 : totalCost g cost internal with
          | ub x => rfl
          | throw x => rfl
          | ok ic =>
            simp only [Res.ok_bind]
            refine ih (ext :: S) _ fun x hxS hxpos => ?_
            rcases List.mem_cons.1 hxS with rfl | hxS
            · refine ⟨ec, ic, h1, h2, ?_⟩
              split
              · exact ⟨rfl, hO.irrefl _⟩
              · rename_i hn
                simp only [Bool.or_eq_true, Bool.not_eq_true', not_or, Bool.not_eq_true, Bool.not_eq_false] at hn
                exact ⟨hn.2, hn.1⟩
            · obtain ⟨ec', ic', k1, k2, k3, k4⟩ := hS x hxS hxpos
              refine ⟨ec', ic', k1, k2, ?_⟩
              split
              · rename_i hy
                refine ⟨rfl, ?_⟩
                rw [k3] at hy
                simp only [Bool.not_true, Bool.or_false] at hy
                cases hlt : O.lt (unitaryLoss O (totalPrize prize x) (totalPrize prize internal) ec' ic')
                    (unitaryLoss O (totalPrize prize ext) (totalPrize prize internal) ec ic) with
                | false => rfl
                | true => rw [hO.trans _ _ _ hlt hy] at k4; cases k4
              · exact ⟨k3, k4⟩
      · rename_i hpos
        refine ih (ext :: S) _ fun x hxS hxpos => ?_
        rcases List.mem_cons.1 hxS with rfl | hxS
        · exact absurd hxpos hpos
        · exact hS x hxS hxpos

theorem SameCosts.choosePath (H : SameCosts g cost h cost') {O : FloatOps F} (prize : Nat → Int) (internal : List Nat) (l : List (List Nat))
    (st : Option (List Nat) × F) : choosePath O h cost' prize internal l st = choosePath O g cost prize internal l st := by
  induction l generalizing st with
  | nil => rfl
  | cons x l ih => simp only [Pctsp.choosePath, H.totalCost, ih]

/-- The end of `extensionEntry`. -/
def entryOf (O : FloatOps F) (g : Graph) (cost prize : Nat → Int) (cands : List (List Nat)) (internal : List Nat) : Res (ExtEntry F) := do
  let (index, value) ← chooseExtensionPath O g cost prize cands internal
  if index ≥ 0 then
    match cands[index.toNat]? with
    | some p => pure { loss := value, feasible := true, path := p }
    | none => .ub "findExtensionPaths: candidate index out of range"
  else pure { loss := O.zero, feasible := false, path := [] }

theorem entryOf_eq (O : FloatOps F) (g : Graph) (cost prize : Nat → Int) (cands : List (List Nat)) (internal : List Nat) :
    entryOf O g cost prize cands internal = (choosePath O g cost prize internal cands (none, O.zero) >>= fun sp =>
      match sp.1 with
      | some p => .ok { loss := sp.2, feasible := true, path := p }
      | none => .ok { loss := O.zero, feasible := false, path := [] }) := by
  rw [entryOf, chooseExtensionPath]
  rcases choosePath_spec O g cost prize internal cands [] cands rfl ⟨false, O.zero, -1⟩ (none, O.zero)
    ⟨rfl, rfl, fun _ => rfl, fun p hp => by cases hp⟩ with ⟨x, h1, h2⟩ | ⟨x, h1, h2⟩ | ⟨st, sp, h1, h2, h3⟩
  · rw [h2]; replace h1 : chooseLoop O g cost prize internal (0 : Int) cands ⟨false, O.zero, -1⟩ = .ub x := h1; rw [h1]; rfl
  · rw [h2]; replace h1 : chooseLoop O g cost prize internal (0 : Int) cands ⟨false, O.zero, -1⟩ = .throw x := h1; rw [h1]; rfl
  · rw [h2]; replace h1 : chooseLoop O g cost prize internal (0 : Int) cands ⟨false, O.zero, -1⟩ = .ok st := h1; rw [h1]
    obtain ⟨sp1, sp2⟩ := sp
    cases sp1 with
    | none =>
      have := h3.empty rfl
      simp only [Res.ok_bind]
      show (if st.index ≥ 0 then _ else _) = _
      rw [if_neg (by omega)]
      rfl
    | some p =>
      obtain ⟨k1, k2⟩ := h3.path p rfl
      have hv := h3.value
      simp only at hv
      simp only [Res.ok_bind]
      show (if st.index ≥ 0 then _ else _) = _
      rw [if_pos k1, k2, hv]
      rfl

theorem SameCosts.entryOf (H : SameCosts g cost h cost') {O : FloatOps F} (hO : O.Strict) (prize : Nat → Int) {c' c : List (List Nat)} (hc : SameNew c' c)
    (internal : List Nat) : entryOf O h cost' prize c' internal = entryOf O g cost prize c internal := by
  rw [entryOf_eq, entryOf_eq, H.choosePath, ← choosePath_newFrom hO g cost prize internal c' [] _ (by simp), hc,
    choosePath_newFrom hO g cost prize internal c [] _ (by simp)]

/-- The external paths between two vertices are the same for both graphs, up to repetitions. -/
def SameCands (g h : Graph) (prize : Nat → Int) (root : Nat) (depth : Int) : Prop := ∀ (tour : List Nat) (vi vj : Nat) (internal : List Nat),
  (∃ x, externalCandidates h prize tour root depth vi vj internal = .ub x ∧ externalCandidates g prize tour root depth vi vj internal = .ub x) ∨
    (∃ x, externalCandidates h prize tour root depth vi vj internal = .throw x ∧ externalCandidates g prize tour root depth vi vj internal = .throw x) ∨
    ∃ l' l, externalCandidates h prize tour root depth vi vj internal = .ok l' ∧ externalCandidates g prize tour root depth vi vj internal = .ok l ∧
      SameNew l' l

theorem SameLinks.cands (H : SameLinks g cost h cost') (prize : Nat → Int) (root : Nat) (depth : Int) : SameCands g h prize root depth := by
  intro tour vi vj internal
  rw [Pctsp.externalCandidates, Pctsp.externalCandidates]
  cases isInternalVertexOfWalk internal root with
  | ub x => exact Or.inl ⟨x, rfl, rfl⟩
  | throw x => exact Or.inr (Or.inl ⟨x, rfl, rfl⟩)
  | ok b =>
    simp only [Res.ok_bind]
    split
    · rcases H.edge vi root with ⟨x, h1, h2⟩ | ⟨h1, h2⟩ | ⟨e', e, h1, h2, h3⟩
      · rw [h1, h2]; exact Or.inl ⟨x, rfl, rfl⟩
      · rw [h1, h2]; exact Or.inr (Or.inr ⟨[], [], rfl, rfl, rfl⟩)
      · rw [h1, h2]
        simp only [Res.ok_bind]
        rcases H.edge root vj with ⟨x, h1, h2⟩ | ⟨h1, h2⟩ | ⟨e', e, h1, h2, h3⟩
        · rw [h1, h2]; exact Or.inl ⟨x, rfl, rfl⟩
        · rw [h1, h2]; exact Or.inr (Or.inr ⟨[], [], rfl, rfl, rfl⟩)
        · rw [h1, h2]; exact Or.inr (Or.inr ⟨_, _, rfl, rfl, rfl⟩)
    · split
      · rcases H.neighborIntersection vi vj with ⟨x, h1, h2⟩ | ⟨l', l, h1, h2, h3⟩
        · rw [h1, h2]; exact Or.inl ⟨x, rfl, rfl⟩
        · rw [h1, h2]
          exact Or.inr (Or.inr ⟨_, _, rfl, rfl, (h3.filter _).map _⟩)
      · split
        · rw [H.breadthFirstSearch]
          cases Pctsp.breadthFirstSearch g vi (fun h => decide (h ∈ tour)) (fun _ => 0) (depth - 1) with
          | ub x => exact Or.inl ⟨x, rfl, rfl⟩
          | throw x => exact Or.inr (Or.inl ⟨x, rfl, rfl⟩)
          | ok r =>
            simp only [Res.ok_bind]
            rcases H.adjacentVertices vj with ⟨x, h1, h2⟩ | ⟨l', l, h1, h2, h3, -⟩
            · rw [h1, h2]; exact Or.inl ⟨x, rfl, rfl⟩
            · rw [h1, h2]
              refine Or.inr (Or.inr ⟨_, _, rfl, rfl, ?_⟩)
              rw [bfsCandidates, bfsCandidates, H.n]
              exact h3.filterMap _
        · exact Or.inr (Or.inr ⟨[], [], rfl, rfl, rfl⟩)

theorem SameCosts.cands (H : SameCosts g cost h cost') (prize : Nat → Int) (root : Nat) {depth : Int} (hd : depth ≤ 2) : SameCands g h prize root depth := by
  intro tour vi vj internal
  rw [Pctsp.externalCandidates, Pctsp.externalCandidates]
  cases isInternalVertexOfWalk internal root with
  | ub x => exact Or.inl ⟨x, rfl, rfl⟩
  | throw x => exact Or.inr (Or.inl ⟨x, rfl, rfl⟩)
  | ok b =>
    simp only [Res.ok_bind]
    split
    · rcases H.edge vi root with ⟨x, h1, h2⟩ | ⟨h1, h2⟩ | ⟨e', e, h1, h2, h3⟩
      · rw [h1, h2]; exact Or.inl ⟨x, rfl, rfl⟩
      · rw [h1, h2]; exact Or.inr (Or.inr ⟨[], [], rfl, rfl, rfl⟩)
      · rw [h1, h2]
        simp only [Res.ok_bind]
        rcases H.edge root vj with ⟨x, h1, h2⟩ | ⟨h1, h2⟩ | ⟨e', e, h1, h2, h3⟩
        · rw [h1, h2]; exact Or.inl ⟨x, rfl, rfl⟩
        · rw [h1, h2]; exact Or.inr (Or.inr ⟨[], [], rfl, rfl, rfl⟩)
        · rw [h1, h2]; exact Or.inr (Or.inr ⟨_, _, rfl, rfl, rfl⟩)
    · split
      · rcases H.neighborIntersection vi vj with ⟨x, h1, h2⟩ | ⟨l', l, h1, h2, h3⟩
        · rw [h1, h2]; exact Or.inl ⟨x, rfl, rfl⟩
        · rw [h1, h2]
          exact Or.inr (Or.inr ⟨_, _, rfl, rfl, (h3.filter _).map _⟩)
      · split
        · omega
        · exact Or.inr (Or.inr ⟨[], [], rfl, rfl, rfl⟩)

theorem SameCosts.extensionEntry_of (H : SameCosts g cost h cost') {O : FloatOps F} (hO : O.Strict) {prize : Nat → Int} {root : Nat} {depth : Int}
    (hx : SameCands g h prize root depth) (tour : List Nat) (step : Nat) (i : Nat) : extensionEntry O h tour cost' prize root step depth i = extensionEntry O g tour cost prize root step depth i := by
  rw [Pctsp.extensionEntry, Pctsp.extensionEntry]
  cases tour[i]? with
  | none => rfl
  | some vi =>
    cases tour[(i + step) % (tour.length - 1)]? with
    | none => rfl
    | some vj =>
      simp only
      cases getSubpathOfCycle tour i ((i + step) % (tour.length - 1)) with
      | ub x => rfl
      | throw x => rfl
      | ok internal =>
        simp only [Res.ok_bind]
        rcases hx tour vi vj internal with ⟨x, h1, h2⟩ | ⟨x, h1, h2⟩ | ⟨l', l, h1, h2, h3⟩
        · rw [h1, h2]; rfl
        · rw [h1, h2]; rfl
        · rw [h1, h2]
          simp only [Res.ok_bind]
          exact H.entryOf hO prize h3 internal

theorem SameCosts.findExtensionPaths_of (H : SameCosts g cost h cost') {O : FloatOps F} (hO : O.Strict) {prize : Nat → Int} {root : Nat} {depth : Int}
    (hx : SameCands g h prize root depth) (tour : List Nat) (step : Nat) : findExtensionPaths O h tour cost' prize root step depth = findExtensionPaths O g tour cost prize root step depth := by
  rw [Pctsp.findExtensionPaths, Pctsp.findExtensionPaths]
  congr 1
  exact funext fun i => H.extensionEntry_of hO hx tour step i

theorem SameCosts.pathExtensionLoop_of (H : SameCosts g cost h cost') {O : FloatOps F} (hO : O.Strict) {prize : Nat → Int} {root : Nat} {depth : Int}
    (hx : SameCands g h prize root depth) (step : Int) (rem : Nat) (first : Bool) (avg : Option F) (tour : List Nat) :
    pathExtensionLoop O h cost' prize root step depth rem first avg tour = pathExtensionLoop O g cost prize root step depth rem first avg tour := by
  induction rem generalizing first avg tour with
  | zero => rfl
  | succ rem ih => simp only [Pctsp.pathExtensionLoop, H.findExtensionPaths_of hO hx, ih]

theorem SameCosts.pathExtension_of (H : SameCosts g cost h cost') {O : FloatOps F} (hO : O.Strict) {prize : Nat → Int} {root : Nat} {depth : Int}
    (hx : SameCands g h prize root depth) (tour : List Nat) (step : Int) : pathExtension O h tour cost' prize root step depth = pathExtension O g tour cost prize root step depth := by
  rw [Pctsp.pathExtension, Pctsp.pathExtension, H.pathExtensionLoop_of hO hx, H.n]

theorem SameCosts.pathExtensionUntilLoop_of (H : SameCosts g cost h cost') {O : FloatOps F} (hO : O.Strict) {prize : Nat → Int} {root : Nat} {depth : Int}
    (hx : SameCands g h prize root depth) (step : Int) (rem : Nat) (tour : List Nat) :
    pathExtensionUntilLoop O h cost' prize root step depth rem tour = pathExtensionUntilLoop O g cost prize root step depth rem tour := by
  induction rem generalizing tour with
  | zero => rfl
  | succ rem ih => simp only [Pctsp.pathExtensionUntilLoop, H.findExtensionPaths_of hO hx, ih]

theorem SameCosts.pathExtensionUntil_of (H : SameCosts g cost h cost') {O : FloatOps F} (hO : O.Strict) {prize : Nat → Int} {root : Nat} {depth : Int}
    (hx : SameCands g h prize root depth) (tour : List Nat) (quota step : Int) : pathExtensionUntilPrizeFeasible O h tour cost' prize root quota step depth =
      pathExtensionUntilPrizeFeasible O g tour cost prize root quota step depth := by
  simp only [Pctsp.pathExtensionUntilPrizeFeasible, H.pathExtensionUntilLoop_of hO hx, H.n]

theorem SameLinks.pathExtension (H : SameLinks g cost h cost') {O : FloatOps F} (hO : O.Strict) (tour : List Nat) (prize : Nat → Int) (root : Nat)
    (step depth : Int) : pathExtension O h tour cost' prize root step depth = pathExtension O g tour cost prize root step depth :=
  H.pathExtension_of hO (H.cands prize root depth) tour step

theorem SameLinks.pathExtensionUntil (H : SameLinks g cost h cost') {O : FloatOps F} (hO : O.Strict) (tour : List Nat) (prize : Nat → Int) (root : Nat)
    (quota step depth : Int) : pathExtensionUntilPrizeFeasible O h tour cost' prize root quota step depth =
      pathExtensionUntilPrizeFeasible O g tour cost prize root quota step depth :=
  H.pathExtensionUntil_of hO (H.cands prize root depth) tour quota step

/-! ### Extension by unitary gain -/

theorem SameCosts.gainLoop (H : SameCosts g cost h cost') (O : FloatOps F) (prize : Nat → Int) (v i u : Nat) (l : List Nat) (st : GainEntry F) :
    gainLoop O h cost' prize v i u l st = gainLoop O g cost prize v i u l st := by
  induction l generalizing i u st with
  | nil => rfl
  | cons w l ih =>
    rw [Pctsp.gainLoop, Pctsp.gainLoop]
    rcases H.edge u v with ⟨x, h1, h2⟩ | ⟨h1, h2⟩ | ⟨e1', e1, h1, h2, c1⟩ <;> rw [h1, h2]
    · rfl
    all_goals
      simp only [Res.ok_bind]
      rcases H.edge v w with ⟨x, h3, h4⟩ | ⟨h3, h4⟩ | ⟨e2', e2, h3, h4, c2⟩ <;> rw [h3, h4]
      · rfl
      all_goals
        simp only [Res.ok_bind]
        rcases H.edge u w with ⟨x, h5, h6⟩ | ⟨h5, h6⟩ | ⟨e3', e3, h5, h6, c3⟩ <;> rw [h5, h6]
        · rfl
        · rfl
        · simp only [Res.ok_bind, ih]
          try rw [c1, c2, c3]

theorem SameCosts.unitaryGainOfVertex (H : SameCosts g cost h cost') (O : FloatOps F) (tour : List Nat) (prize : Nat → Int) (v : Nat) :
    unitaryGainOfVertex O h tour cost' prize v = unitaryGainOfVertex O g tour cost prize v := by
  cases tour with
  | nil => rfl
  | cons u l => exact H.gainLoop O prize v 0 u l _

theorem SameCosts.biggestGainLoop (H : SameCosts g cost h cost') (O : FloatOps F) (tour : List Nat) (prize : Nat → Int) (inTour : Nat → Bool)
    (vs : List Nat) (st : GainMap F × Option Nat × F) :
    biggestGainLoop O h tour cost' prize inTour vs st = biggestGainLoop O g tour cost prize inTour vs st := by
  induction vs generalizing st with
  | nil => rfl
  | cons v vs ih =>
    obtain ⟨gm, best, b⟩ := st
    simp only [Pctsp.biggestGainLoop, H.unitaryGainOfVertex, ih]

theorem SameCosts.findVertex (H : SameCosts g cost h cost') (O : FloatOps F) (tour : List Nat) (prize : Nat → Int) (inTour : Nat → Bool)
    (gm : GainMap F) : findVertexWithBiggestGain O h tour cost' prize inTour gm = findVertexWithBiggestGain O g tour cost prize inTour gm := by
  rw [findVertexWithBiggestGain, findVertexWithBiggestGain, H.biggestGainLoop, H.n]

theorem SameCosts.extensionUnitaryGain (H : SameCosts g cost h cost') (O : FloatOps F) (tour : List Nat) (prize : Nat → Int) :
    extensionUnitaryGain O h tour cost' prize = extensionUnitaryGain O g tour cost prize := by
  have key : ∀ fuel avg inTour (gm : GainMap F) tour, extensionUnitaryGainLoop O h cost' prize fuel avg inTour gm tour =
      extensionUnitaryGainLoop O g cost prize fuel avg inTour gm tour := by
    intro fuel
    induction fuel with
    | zero => intros; rfl
    | succ fuel ih => intro avg inTour gm tour; simp only [extensionUnitaryGainLoop, H.findVertex, ih, H.n]
  rw [Pctsp.extensionUnitaryGain, Pctsp.extensionUnitaryGain, key, H.n]

theorem SameCosts.extensionUntil (H : SameCosts g cost h cost') (O : FloatOps F) (tour : List Nat) (prize : Nat → Int) (quota : Int) :
    extensionUntilPrizeFeasible O h tour cost' prize quota = extensionUntilPrizeFeasible O g tour cost prize quota := by
  have key : ∀ fuel k ins cur inTour (gm : GainMap F) tour, extensionUntilLoop O h cost' prize quota fuel k ins cur inTour gm tour =
      extensionUntilLoop O g cost prize quota fuel k ins cur inTour gm tour := by
    intro fuel
    induction fuel with
    | zero => intros; rfl
    | succ fuel ih => intro k ins cur inTour gm tour; simp only [extensionUntilLoop, H.findVertex, ih, H.n]
  simp only [Pctsp.extensionUntilPrizeFeasible, key, H.n]

/-! ### Collapse -/

/-- `bestCollapseLoop` with the path instead of its position. -/
def bestPath (g : Graph) (cost : Nat → Int) (internalCost : Int) : List (List Nat) → Option (List Nat) × Int → Res (Option (List Nat) × Int)
  | [], st => .ok st
  | p :: ps, st => do
    let ext ← totalCost g cost p
    bestPath g cost internalCost ps (if ext + internalCost < st.2 then (some p, ext + internalCost) else st)

theorem bestPath_spec (g : Graph) (cost : Nat → Int) (ic : Int) (full pre l : List (List Nat)) (hfull : full = pre ++ l) (st : Option Nat × Int)
    (sp : Option (List Nat) × Int) (h2 : st.2 = sp.2) (h1 : match st.1 with | none => sp.1 = none | some b => full[b]? = sp.1 ∧ sp.1.isSome = true) :
    (∃ x, bestCollapseLoop g cost ic pre.length l st = .ub x ∧ bestPath g cost ic l sp = .ub x) ∨
      (∃ x, bestCollapseLoop g cost ic pre.length l st = .throw x ∧ bestPath g cost ic l sp = .throw x) ∨
      ∃ st' sp', bestCollapseLoop g cost ic pre.length l st = .ok st' ∧ bestPath g cost ic l sp = .ok sp' ∧ st'.2 = sp'.2 ∧
        match st'.1 with | none => sp'.1 = none | some b => full[b]? = sp'.1 ∧ sp'.1.isSome = true := by
  induction l generalizing pre st sp with
  | nil => exact Or.inr (Or.inr ⟨st, sp, rfl, rfl, h2, h1⟩)
  | cons p l ih =>
    obtain ⟨s1, s2⟩ := st
    rw [bestCollapseLoop, bestPath]
    cases hc : totalCost g cost p with
    | ub x => exact Or.inl ⟨x, rfl, rfl⟩
    | throw x => exact Or.inr (Or.inl ⟨x, rfl, rfl⟩)
    | ok ec =>
      simp only [Res.ok_bind]
      have hlen : pre.length + 1 = (pre ++ [p]).length := by simp
      rw [hlen]
      simp only at h2
      rw [h2]
      refine ih (pre ++ [p]) (by rw [hfull]; simp) _ _ ?_ ?_
      · split <;> rfl
      · by_cases hlt : ec + ic < sp.2
        · simp only [if_pos hlt]
          refine ⟨?_, rfl⟩
          rw [hfull]
          simp
        · simp only [if_neg hlt]
          exact h1

theorem bestPath_newFrom (g : Graph) (cost : Nat → Int) (ic : Int) (l S : List (List Nat)) (st : Option (List Nat) × Int)
    (hS : ∀ x ∈ S, ∃ ec, totalCost g cost x = .ok ec ∧ st.2 ≤ ec + ic) : bestPath g cost ic (newFrom S l) st = bestPath g cost ic l st := by
  induction l generalizing S st with
  | nil => rfl
  | cons p l ih =>
    rw [newFrom]
    by_cases hp : p ∈ S
    · obtain ⟨ec, h1, h2⟩ := hS p hp
      rw [if_pos hp, bestPath, h1]
      simp only [Res.ok_bind]
      rw [if_neg (by omega), ih S st hS]
    · rw [if_neg hp, bestPath, bestPath]
      cases hc : totalCost g cost p with
      | ub x => rfl
      | throw x => rfl
      | ok ec =>
        simp only [Res.ok_bind]
        refine ih _ _ fun x hx => ?_
        rcases List.mem_cons.1 hx with rfl | hx
        · refine ⟨ec, hc, ?_⟩
          split
          · exact Int.le_refl _
          · omega
        · obtain ⟨ec', k1, k2⟩ := hS x hx
          refine ⟨ec', k1, ?_⟩
          split
          · simp only; omega
          · exact k2

theorem SameCosts.bestPath (H : SameCosts g cost h cost') (ic : Int) (l : List (List Nat)) (st : Option (List Nat) × Int) :
    bestPath h cost' ic l st = bestPath g cost ic l st := by
  induction l generalizing st with
  | nil => rfl
  | cons x l ih => simp only [Pctsp.bestPath, H.totalCost, ih]

/-- The end of `collapseStep`. -/
def bestOf (g : Graph) (cost : Nat → Int) (path : List Nat) (paths : List (List Nat)) (st : List Nat × Int) : Res (List Nat × Int) := do
  let internalCost ← totalCost g cost path
  let (best, bestCost) ← bestCollapseLoop g cost internalCost 0 paths (none, st.2)
  match best with
  | none => pure (st.1, bestCost)
  | some b =>
    match paths[b]? with
    | none => .ub "collapse: path index out of range"
    | some ext => pure (path ++ ext.tail, bestCost)

theorem bestOf_eq (g : Graph) (cost : Nat → Int) (path : List Nat) (paths : List (List Nat)) (st : List Nat × Int) :
    bestOf g cost path paths st = (totalCost g cost path >>= fun ic => Pctsp.bestPath g cost ic paths (none, st.2) >>= fun sp =>
      match sp.1 with
      | none => .ok (st.1, sp.2)
      | some ext => .ok (path ++ ext.tail, sp.2)) := by
  rw [bestOf]
  cases totalCost g cost path with
  | ub x => rfl
  | throw x => rfl
  | ok ic =>
    simp only [Res.ok_bind]
    rcases bestPath_spec g cost ic paths [] paths rfl (none, st.2) (none, st.2) rfl rfl with ⟨x, h1, h2⟩ | ⟨x, h1, h2⟩ | ⟨st', sp, h1, h2, h3, h4⟩
    · rw [h2]; simp only [List.length_nil] at h1; rw [h1]; rfl
    · rw [h2]; simp only [List.length_nil] at h1; rw [h1]; rfl
    · rw [h2]; simp only [List.length_nil] at h1; rw [h1]
      obtain ⟨s1, s2⟩ := st'
      obtain ⟨p1, p2⟩ := sp
      simp only at h3
      subst h3
      cases s1 with
      | none =>
        simp only at h4
        subst h4
        rfl
      | some b =>
        simp only at h4
        obtain ⟨k1, k2⟩ := h4
        cases p1 with
        | none => cases k2
        | some p =>
          simp only [Res.ok_bind]
          rw [k1]
          rfl

theorem SameCosts.bestOf (H : SameCosts g cost h cost') (path : List Nat) {p' p : List (List Nat)} (hp : SameNew p' p) (st : List Nat × Int) :
    bestOf h cost' path p' st = bestOf g cost path p st := by
  rw [bestOf_eq, bestOf_eq, H.totalCost]
  congr 1
  funext ic
  rw [H.bestPath, ← bestPath_newFrom g cost ic p' [] _ (by simp), hp, bestPath_newFrom g cost ic p [] _ (by simp)]

theorem collapseVia_eq (g : Graph) (prize : Nat → Int) (quota : Int) (internal : List Nat) (s t : Nat) (l : List Nat) (hl : ∀ c ∈ l, c < g.n) :
    collapseVia g prize quota internal s t l = .ok (l.filterMap fun c =>
      if (g.edgeIdx c t).isSome = true ∧ c ∉ internal ∧ totalPrize prize internal + prize c ≥ quota ∧ s ≠ t then some [s, c, t] else none) := by
  induction l with
  | nil => rfl
  | cons c l ih =>
    rw [collapseVia, Graph.edge, if_pos (hl c (by simp)), ih fun c hc => hl c (by simp [hc])]
    simp only [Res.ok_bind, List.filterMap_cons]
    split <;> rfl

theorem SameLinks.findCollapsePaths (H : SameLinks g cost h cost') (prize : Nat → Int) (quota : Int) (internal : List Nat) (pick : Pick) :
    (∃ x, findCollapsePaths h cost' prize quota internal false pick = .ub x ∧ findCollapsePaths g cost prize quota internal false pick = .ub x) ∨
      ∃ l' l, findCollapsePaths h cost' prize quota internal false pick = .ok l' ∧ findCollapsePaths g cost prize quota internal false pick = .ok l ∧
        SameNew l' l := by
  rw [Pctsp.findCollapsePaths, Pctsp.findCollapsePaths]
  cases internal.head? with
  | none => exact Or.inl ⟨_, rfl, rfl⟩
  | some t =>
    cases internal.getLast? with
    | none => exact Or.inl ⟨_, rfl, rfl⟩
    | some s =>
      simp only
      rcases H.adjacentVertices s with ⟨x, h1, h2⟩ | ⟨l', l, h1, h2, h3, h4⟩
      · rw [h1, h2]; exact Or.inl ⟨x, rfl, rfl⟩
      · rw [h1, h2]
        simp only [Res.ok_bind]
        rw [collapseVia_eq g prize quota internal s t l h4,
          collapseVia_eq h prize quota internal s t l' (fun c hc => by rw [H.n]; exact h4 c ((h3.mem c).1 hc))]
        refine Or.inr ⟨_, _, rfl, rfl, ?_⟩
        have e : ∀ c, (h.edgeIdx c t).isSome = (g.edgeIdx c t).isSome := by
          intro c
          have := congrArg Option.isSome (H.cost c t)
          simpa using this
        simp only [e]
        exact h3.filterMap _

theorem SameLinks.collapseStep (H : SameLinks g cost h cost') (tour : List Nat) (prize : Nat → Int) (quota : Int) (root : Nat) (pick : Pick) (i : Nat)
    (st : List Nat × Int) : collapseStep h tour cost' prize quota root false pick i st = collapseStep g tour cost prize quota root false pick i st := by
  rw [Pctsp.collapseStep, Pctsp.collapseStep]
  cases getSubPathOverTour tour i prize quota root with
  | ub x => rfl
  | throw x => rfl
  | ok sp =>
    simp only [Res.ok_bind]
    split
    · rcases H.findCollapsePaths prize quota sp.path pick with ⟨x, h1, h2⟩ | ⟨l', l, h1, h2, h3⟩
      · rw [h1, h2]; rfl
      · rw [h1, h2]
        simp only [Res.ok_bind]
        exact H.bestOf sp.path h3 st
    · rfl

theorem SameLinks.collapse (H : SameLinks g cost h cost') (tour : List Nat) (prize : Nat → Int) (quota : Int) (root : Nat) (pick : Nat → Pick) :
    collapse h tour cost' prize quota root false pick = collapse g tour cost prize quota root false pick := by
  have key : ∀ i st, collapseLoop h tour cost' prize quota root false pick i st = collapseLoop g tour cost prize quota root false pick i st := by
    intro i
    induction i with
    | zero => intro st; rfl
    | succ i ih => intro st; simp only [collapseLoop, H.collapseStep, ih]
  simp only [Pctsp.collapse, H.totalCost, key]

theorem SameLinks.pathExtensionCollapse (H : SameLinks g cost h cost') {O : FloatOps F} (hO : O.Strict) (tour : List Nat) (prize : Nat → Int)
    (quota : Int) (root : Nat) (pick0 : Nat → Pick) (pick : Nat → Nat → Pick) (depth step : Int) :
    pathExtensionCollapse O h tour cost' prize quota root false pick0 pick depth step =
      pathExtensionCollapse O g tour cost prize quota root false pick0 pick depth step := by
  have key : ∀ rem step tour, extendUntilFeasibleLoop O h cost' prize quota root depth rem step tour =
      extendUntilFeasibleLoop O g cost prize quota root depth rem step tour := by
    intro rem
    induction rem with
    | zero => intros; rfl
    | succ rem ih => intro step tour; simp only [extendUntilFeasibleLoop, H.pathExtensionUntil hO, ih]
  have key2 : ∀ rem step st, pingPongLoop O h cost' prize quota root false pick depth rem step st =
      pingPongLoop O g cost prize quota root false pick depth rem step st := by
    intro rem
    induction rem with
    | zero => intros; rfl
    | succ rem ih => intro step st; obtain ⟨b, c⟩ := st; simp only [pingPongLoop, H.pathExtension hO, H.collapse, H.totalCost, ih]
  simp only [Pctsp.pathExtensionCollapse, key, key2, H.collapse, H.totalCost]

end Pctsp
