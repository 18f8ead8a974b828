import Mathlib.Algebra.Order.Ring.Int
import Mathlib.Algebra.Order.Ring.Rat
import Mathlib.Tactic.Ring
import Verif.Model.Gain
import Verif.Spec.Units

/-!
# Helper lemmas for C134
-/

namespace Pctsp

variable {F : Type}

theorem bind_map_eq {α β α' β' : Type} {f : α → α'} {h : β → β'} {r : Res α} {r' : Res α'} {c : α → Res β} {c' : α' → Res β'} (hr : r' = f <$> r)
    (hc : ∀ a, c' (f a) = h <$> c a) : (r' >>= c') = h <$> (r >>= c) := by
  subst hr
  cases r <;> simp [hc]

theorem bind_id_eq {α β β' : Type} {h : β → β'} {r r' : Res α} {c : α → Res β} {c' : α → Res β'} (hr : r' = r)
    (hc : ∀ a, c' a = h <$> c a) : (r' >>= c') = h <$> (r >>= c) := by
  subst hr
  cases r' <;> simp [hc]

/-- `s` maps the ratios to those in other units: the numerator is multiplied by `k`, the denominator by `m`. -/
structure Rescaled (O : FloatOps F) (k m : Int) (s : F → F) : Prop where
  zero : s O.zero = O.zero
  ratio : ∀ a b : Int, O.div (O.ofInt (k * a)) (O.ofInt (m * b)) = s (O.div (O.ofInt a) (O.ofInt b))
  add : ∀ x y, O.add (s x) (s y) = s (O.add x y)
  avg : ∀ x (n : Int), O.div (s x) (O.ofInt n) = s (O.div x (O.ofInt n))
  lt : ∀ x y, O.lt (s x) (s y) = O.lt x y
  pos : ∀ b : Int, O.lt O.zero (O.ofInt (m * b)) = O.lt O.zero (O.ofInt b)

theorem foldl_inUnit (k : Int) (f : Nat → Int) (l : List Nat) (a : Int) :
    l.foldl (fun c e => c + inUnit k f e) (k * a) = k * l.foldl (fun c e => c + f e) a := by
  induction l generalizing a with
  | nil => rfl
  | cons x l ih =>
    simp only [List.foldl_cons]
    rw [← ih, inUnit, mul_add]

theorem totalPrize_inUnit (k : Int) (f : Nat → Int) (l : List Nat) : totalPrize (inUnit k f) l = k * totalPrize f l := by
  have := foldl_inUnit k f l 0
  rwa [mul_zero] at this

theorem totalCost_inUnit (k : Int) (g : Graph) (f : Nat → Int) (l : List Nat) : totalCost g (inUnit k f) l = (k * ·) <$> totalCost g f l := by
  unfold totalCost
  refine bind_id_eq rfl fun es => ?_
  have := foldl_inUnit k f es 0
  rw [mul_zero] at this
  exact congrArg Res.ok this

theorem totalPrizeOfTour_inUnit (k : Int) (f : Nat → Int) (l : List Nat) : totalPrizeOfTour (inUnit k f) l = (k * ·) <$> totalPrizeOfTour f l := by
  cases l with
  | nil => rfl
  | cons x l => exact congrArg Res.ok (totalPrize_inUnit k f _)

/-! ### Path extension -/

section Extension
variable {O : FloatOps F} {k m : Int} {s : F → F}

/-- The loops that look for the smallest value. -/
def ArgminState.scale (s : F → F) (st : ArgminState F) : ArgminState F := { st with value := s st.value }

theorem chooseLoop_units (h : Rescaled O k m s) (hm : 0 < m) (g : Graph) (cost prize : Nat → Int) (internal : List Nat) (i : Int) (l : List (List Nat))
    (st : ArgminState F) :
    chooseLoop O g (inUnit k cost) (inUnit m prize) internal i l (st.scale s) = ArgminState.scale s <$> chooseLoop O g cost prize internal i l st := by
  induction l generalizing i st with
  | nil => rfl
  | cons p l ih =>
    unfold chooseLoop
    dsimp only
    rw [totalPrize_inUnit, totalPrize_inUnit, ← mul_sub, h.pos]
    split
    · refine bind_map_eq (totalCost_inUnit k g cost p) fun c => bind_map_eq (totalCost_inUnit k g cost internal) fun c' => ?_
      have hl : unitaryLoss O (m * totalPrize prize p) (m * totalPrize prize internal) (k * c) (k * c') =
          s (unitaryLoss O (totalPrize prize p) (totalPrize prize internal) c c') := by
        unfold unitaryLoss
        rw [← mul_sub, ← mul_sub, h.ratio]
      rw [hl, ← ih]
      congr 1
      have : O.lt (s (unitaryLoss O (totalPrize prize p) (totalPrize prize internal) c c')) (st.scale s).value =
        O.lt (unitaryLoss O (totalPrize prize p) (totalPrize prize internal) c c') st.value := h.lt _ _
      rw [this]
      have h2 : (st.scale s).found = st.found := rfl
      rw [h2]
      split <;> rfl
    · exact ih _ _

theorem chooseExtensionPath_units (h : Rescaled O k m s) (hm : 0 < m) (g : Graph) (cost prize : Nat → Int) (cands : List (List Nat)) (internal : List Nat) :
    chooseExtensionPath O g (inUnit k cost) (inUnit m prize) cands internal = (fun x => (x.1, s x.2)) <$> chooseExtensionPath O g cost prize cands internal := by
  unfold chooseExtensionPath
  refine bind_map_eq (f := ArgminState.scale s) ?_ fun a => rfl
  rw [← chooseLoop_units h hm]
  congr 1
  simp [ArgminState.scale, h.zero]

theorem mul_lt_iff_of_pos {m : Int} (hm : 0 < m) (a b : Int) : m * a < m * b ↔ a < b := mul_lt_mul_iff_right₀ hm

theorem bfsCandidates_units (hm : 0 < m) (g : Graph) (prize : Nat → Int) (tour internal : List Nat) (vj : Nat) (marked : Nat → Bool) (parent : Nat → Nat)
    (nbrs : List Nat) : bfsCandidates g (inUnit m prize) tour internal vj marked parent nbrs = bfsCandidates g prize tour internal vj marked parent nbrs := by
  unfold bfsCandidates
  congr 1
  funext v
  dsimp only
  rw [totalPrize_inUnit, totalPrize_inUnit]
  simp only [gt_iff_lt, mul_lt_iff_of_pos hm]

theorem externalCandidates_units (hm : 0 < m) (g : Graph) (prize : Nat → Int) (tour : List Nat) (root : Nat) (depth : Int) (vi vj : Nat) (internal : List Nat) :
    externalCandidates g (inUnit m prize) tour root depth vi vj internal = externalCandidates g prize tour root depth vi vj internal := by
  unfold externalCandidates
  simp only [bfsCandidates_units hm]

/-- An entry with the loss in other units. -/
def ExtEntry.scale (s : F → F) (e : ExtEntry F) : ExtEntry F := { e with loss := s e.loss }

theorem extensionEntry_units (h : Rescaled O k m s) (hm : 0 < m) (g : Graph) (tour : List Nat) (cost prize : Nat → Int) (root step : Nat) (depth : Int) (i : Nat) :
    extensionEntry O g tour (inUnit k cost) (inUnit m prize) root step depth i = ExtEntry.scale s <$> extensionEntry O g tour cost prize root step depth i := by
  unfold extensionEntry
  dsimp only
  split
  · refine bind_id_eq rfl fun internal => bind_id_eq (externalCandidates_units hm ..) fun cands => bind_map_eq (chooseExtensionPath_units h hm g cost prize cands internal)
      fun x => ?_
    dsimp only
    split
    · split <;> rfl
    · simp [ExtEntry.scale, h.zero]
  · rfl

theorem mapRes_map {α β β' : Type} {f : α → Res β} {f' : α → Res β'} {s : β → β'} (h : ∀ a, f' a = s <$> f a) (l : List α) :
    mapRes f' l = List.map s <$> mapRes f l := by
  induction l with
  | nil => rfl
  | cons a l ih => exact bind_map_eq (h a) fun b => bind_map_eq ih fun bs => rfl

theorem findExtensionPaths_units (h : Rescaled O k m s) (hm : 0 < m) (g : Graph) (tour : List Nat) (cost prize : Nat → Int) (root step : Nat) (depth : Int) :
    findExtensionPaths O g tour (inUnit k cost) (inUnit m prize) root step depth =
      List.map (ExtEntry.scale s) <$> findExtensionPaths O g tour cost prize root step depth :=
  mapRes_map (extensionEntry_units h hm g tour cost prize root step depth) _

theorem smallestLossLoop_units (h : Rescaled O k m s) (i : Int) (l : List (F × Bool)) (st : ArgminState F) :
    smallestLossLoop O i (l.map fun x => (s x.1, x.2)) (st.scale s) = (smallestLossLoop O i l st).scale s := by
  induction l generalizing i st with
  | nil => rfl
  | cons x l ih =>
    obtain ⟨x, b⟩ := x
    simp only [List.map_cons, smallestLossLoop]
    rw [← ih]
    congr 1
    have : O.lt (s x) (st.scale s).value = O.lt x st.value := h.lt _ _
    rw [this]
    have h2 : (st.scale s).found = st.found := rfl
    rw [h2]
    split <;> rfl

theorem indexOfSmallestLoss_units (h : Rescaled O k m s) (l : List (F × Bool)) : indexOfSmallestLoss O (l.map fun x => (s x.1, x.2)) = indexOfSmallestLoss O l := by
  have := smallestLossLoop_units h 0 l { found := false, value := O.zero, index := -1 }
  unfold indexOfSmallestLoss
  have h2 : ArgminState.scale s { found := false, value := O.zero, index := -1 } = { found := false, value := O.zero, index := -1 } := by simp [ArgminState.scale, h.zero]
  rw [h2] at this
  rw [this]
  rfl

theorem averageUnitaryLoss_units (h : Rescaled O k m s) (l : List (F × Bool)) : averageUnitaryLoss O (l.map fun x => (s x.1, x.2)) = s (averageUnitaryLoss O l) := by
  unfold averageUnitaryLoss
  rw [List.map_map, ← h.avg]
  have : ∀ a, (l.map fun x => (s x.1, x.2)).foldl (fun t x => if x.2 then O.add t x.1 else t) (s a) = s (l.foldl (fun t x => if x.2 then O.add t x.1 else t) a) := by
    intro a
    induction l generalizing a with
    | nil => rfl
    | cons x l ih =>
      simp only [List.map_cons, List.foldl_cons]
      rw [← ih]
      congr 1
      split
      · exact h.add _ _
      · rfl
  have h3 := this O.zero
  rw [h.zero] at h3
  rw [h3]
  rfl

theorem map_loss (s : F → F) (l : List (ExtEntry F)) :
    ((l.map (ExtEntry.scale s)).map fun e => (e.loss, e.feasible)) = (l.map fun e => (e.loss, e.feasible)).map fun x => (s x.1, x.2) := by
  simp [ExtEntry.scale, Function.comp_def]

theorem map_feasible (s : F → F) (l : List (ExtEntry F)) : (l.map (ExtEntry.scale s)).map (·.feasible) = l.map (·.feasible) := by
  simp [ExtEntry.scale, Function.comp_def]

theorem pathExtensionLoop_units (h : Rescaled O k m s) (hm : 0 < m) (g : Graph) (cost prize : Nat → Int) (root : Nat) (step depth : Int) (rem : Nat) (first : Bool)
    (avg : Option F) (tour : List Nat) :
    pathExtensionLoop O g (inUnit k cost) (inUnit m prize) root step depth rem first (avg.map s) tour = pathExtensionLoop O g cost prize root step depth rem first avg tour := by
  induction rem generalizing first avg tour with
  | zero => rfl
  | succ rem ih =>
    simp only [pathExtensionLoop]
    split
    · rfl
    split
    · rfl
    rw [← id_map (findExtensionPaths O g tour cost prize root step.toNat depth >>= _)]
    refine bind_map_eq (findExtensionPaths_units h hm g tour cost prize root step.toNat depth) fun es => ?_
    rw [id_map, map_feasible, map_loss, indexOfSmallestLoss_units h, averageUnitaryLoss_units h]
    split
    · split
      · rfl
      · rw [List.getElem?_map]
        cases hes : es[(indexOfSmallestLoss O (es.map fun e => (e.loss, e.feasible))).toNat]? with
        | none => rfl
        | some e =>
          dsimp only [Option.map_some]
          have hl : (e.scale s).loss = s e.loss := rfl
          have hp : (e.scale s).path = e.path := rfl
          rw [hl, hp]
          cases avg with
          | none =>
            simp only [Option.map_none, h.lt]
            split
            · congr 1
              funext t
              exact ih false (some _) t
            · rfl
          | some a =>
            simp only [Option.map_some, h.lt]
            split
            · congr 1
              funext t
              exact ih false (some _) t
            · rfl
    · rfl

theorem pathExtension_units (h : Rescaled O k m s) (hm : 0 < m) (g : Graph) (tour : List Nat) (cost prize : Nat → Int) (root : Nat) (step depth : Int) :
    pathExtension O g tour (inUnit k cost) (inUnit m prize) root step depth = pathExtension O g tour cost prize root step depth :=
  pathExtensionLoop_units h hm g cost prize root step depth g.n true none tour

theorem pathExtensionUntilLoop_units (h : Rescaled O k m s) (hm : 0 < m) (g : Graph) (cost prize : Nat → Int) (root : Nat) (step depth : Int) (rem : Nat)
    (tour : List Nat) :
    pathExtensionUntilLoop O g (inUnit k cost) (inUnit m prize) root step depth rem tour = pathExtensionUntilLoop O g cost prize root step depth rem tour := by
  induction rem generalizing tour with
  | zero => rfl
  | succ rem ih =>
    simp only [pathExtensionUntilLoop]
    split
    · rfl
    rw [← id_map (findExtensionPaths O g tour cost prize root step.toNat depth >>= _)]
    refine bind_map_eq (findExtensionPaths_units h hm g tour cost prize root step.toNat depth) fun es => ?_
    rw [id_map, map_feasible, map_loss, indexOfSmallestLoss_units h]
    split
    · split
      · rfl
      · rw [List.getElem?_map]
        cases hes : es[(indexOfSmallestLoss O (es.map fun e => (e.loss, e.feasible))).toNat]? with
        | none => rfl
        | some e =>
          dsimp only [Option.map_some]
          congr 1
          funext t
          exact ih t
    · rfl

theorem pathExtensionUntil_units (h : Rescaled O k m s) (hm : 0 < m) (g : Graph) (tour : List Nat) (cost prize : Nat → Int) (root : Nat) (quota step depth : Int) :
    pathExtensionUntilPrizeFeasible O g tour (inUnit k cost) (inUnit m prize) root (m * quota) step depth =
      pathExtensionUntilPrizeFeasible O g tour cost prize root quota step depth := by
  unfold pathExtensionUntilPrizeFeasible
  rw [← id_map (totalPrizeOfTour prize tour >>= _)]
  refine bind_map_eq (totalPrizeOfTour_inUnit m prize tour) fun p => ?_
  rw [id_map]
  simp only [mul_lt_iff_of_pos hm, pathExtensionUntilLoop_units h hm]

end Extension

/-! ### Collapse -/

section Collapse
variable {O : FloatOps F} {k m : Int} {s : F → F}

theorem mul_le_iff_of_pos {m : Int} (hm : 0 < m) (a b : Int) : m * a ≤ m * b ↔ a ≤ b := mul_le_mul_iff_right₀ hm

theorem subPathLoop_units (hm : 0 < m) (tour : List Nat) (prize : Nat → Int) (quota : Int) (root n pos : Nat) (sp : SubPath) :
    subPathLoop tour (inUnit m prize) (m * quota) root n pos { sp with prizeOfPath := m * sp.prizeOfPath } =
      (fun sp => { sp with prizeOfPath := m * sp.prizeOfPath }) <$> subPathLoop tour prize quota root n pos sp := by
  induction n generalizing pos sp with
  | zero => rfl
  | succ n ih =>
    simp only [subPathLoop, mul_lt_iff_of_pos hm]
    split
    · cases tour[if pos = tour.length then 1 else pos]? with
      | none => rfl
      | some c =>
        dsimp only
        have : m * sp.prizeOfPath + inUnit m prize c = m * (sp.prizeOfPath + prize c) := by rw [inUnit, mul_add]
        simp only [this, ge_iff_le, mul_le_iff_of_pos hm]
        split
        · rfl
        · exact ih _ { sp with path := sp.path ++ [c], prizeOfPath := sp.prizeOfPath + prize c, rootSeen := sp.rootSeen || decide (c = root) }
    · rfl

theorem getSubPathOverTour_units (hm : 0 < m) (tour : List Nat) (index : Nat) (prize : Nat → Int) (quota : Int) (root : Nat) :
    getSubPathOverTour tour index (inUnit m prize) (m * quota) root =
      (fun sp => { sp with prizeOfPath := m * sp.prizeOfPath }) <$> getSubPathOverTour tour index prize quota root := by
  unfold getSubPathOverTour
  cases tour[index]? with
  | none => rfl
  | some f => exact subPathLoop_units hm tour prize quota root _ _ { path := [f], prizeOfPath := prize f, rootSeen := decide (f = root), feasibleFound := false }

theorem collapseVia_units (hm : 0 < m) (g : Graph) (prize : Nat → Int) (quota : Int) (internal : List Nat) (source target : Nat) (l : List Nat) :
    collapseVia g (inUnit m prize) (m * quota) internal source target l = collapseVia g prize quota internal source target l := by
  induction l with
  | nil => rfl
  | cons c l ih =>
    simp only [collapseVia]
    rw [ih, totalPrize_inUnit]
    have : m * totalPrize prize internal + inUnit m prize c = m * (totalPrize prize internal + prize c) := by rw [inUnit, mul_add]
    simp only [this, ge_iff_le, mul_le_iff_of_pos hm]

/-- The state of Dijkstra's algorithm with the distances in other units. -/
def DijState.scale (k : Int) (st : DijState) : DijState := { st with dist := fun v => (st.dist v).map (k * ·) }

theorem upd_map (k : Int) (f : Nat → Option Int) (v : Nat) (x : Int) :
    (fun u => ((upd f v (some x)) u).map (k * ·)) = upd (fun u => (f u).map (k * ·)) v (some (k * x)) := by
  funext u
  unfold upd
  split <;> rfl

theorem relaxEdges_units (hk : 0 < k) (cost : Nat → Int) (mark : Nat → Bool) (u : Nat) (du : Int) (l : List (Nat × Nat)) (st : DijState) :
    relaxEdges (inUnit k cost) mark u (k * du) l (st.scale k) = DijState.scale k <$> relaxEdges cost mark u du l st := by
  induction l generalizing st with
  | nil => rfl
  | cons x l ih =>
    obtain ⟨e, v⟩ := x
    have h0 : inUnit k cost e < 0 ↔ cost e < 0 := by
      have := mul_lt_iff_of_pos hk (cost e) 0
      rwa [mul_zero] at this
    have h1 : k * du + inUnit k cost e = k * (du + cost e) := by rw [inUnit, mul_add]
    simp only [relaxEdges, h0, h1]
    split
    · rfl
    · have hcol : (st.scale k).color = st.color := rfl
      have hdist : (st.scale k).dist = fun v => (st.dist v).map (k * ·) := rfl
      simp only [hcol, hdist]
      cases hc : (if mark v = true then upd st.color v .black else st.color) v with
      | white =>
        rw [← ih]
        simp only [DijState.scale]
        rw [upd_map]
      | gray =>
        dsimp only
        cases hd : st.dist v with
        | none => rfl
        | some dv =>
          simp only [Option.map_some, mul_lt_iff_of_pos hk]
          split
          · rw [← ih]
            simp only [DijState.scale]
            rw [upd_map]
          · rw [← ih]
            rfl
      | black =>
        rw [← ih]
        rfl

theorem dijkstraLoop_units (hk : 0 < k) (g : Graph) (cost : Nat → Int) (mark : Nat → Bool) (target : Option Nat) {pick : Pick} (hp : UnitFree k pick) (fuel : Nat)
    (st : DijState) :
    dijkstraLoop g (inUnit k cost) mark target pick fuel (st.scale k) = (fun x => (x.1, x.2.scale k)) <$> dijkstraLoop g cost mark target pick fuel st := by
  induction fuel generalizing st with
  | zero => rfl
  | succ fuel ih =>
    simp only [dijkstraLoop]
    have hq : (st.scale k).queue = st.queue := rfl
    have hdist : (st.scale k).dist = fun v => (st.dist v).map (k * ·) := rfl
    rw [hq, hdist, hp]
    split
    · rfl
    · dsimp only
      cases hd : st.dist (pick fuel st.dist st.queue) with
      | none => rfl
      | some du =>
        simp only [Option.map_some]
        refine bind_map_eq (relaxEdges_units hk cost mark _ du _ { st with queue := st.queue.erase (pick fuel st.dist st.queue) }) fun st' => ?_
        split
        · rfl
        · exact ih { st' with color := upd st'.color (pick fuel st.dist st.queue) .black }

theorem dijkstra_units (hk : 0 < k) (g : Graph) (cost : Nat → Int) (mark : Nat → Bool) (target : Option Nat) {pick : Pick} (hp : UnitFree k pick) (source : Nat) :
    dijkstra g (inUnit k cost) mark target pick source = (fun x => (x.1, x.2.scale k)) <$> dijkstra g cost mark target pick source := by
  unfold dijkstra
  split
  · rw [← dijkstraLoop_units hk g cost mark target hp]
    congr 1
    simp only [DijState.scale]
    rw [upd_map, mul_zero]
    rfl
  · rfl

theorem collapseShortest_units (hk : 0 < k) (hm : 0 < m) (g : Graph) (cost prize : Nat → Int) (quota : Int) (internal : List Nat) (source target : Nat) {pick : Pick}
    (hp : UnitFree k pick) : collapseShortest g (inUnit k cost) (inUnit m prize) (m * quota) internal source target pick =
      collapseShortest g cost prize quota internal source target pick := by
  unfold collapseShortest
  dsimp only
  rw [dijkstra_units hk g cost _ _ hp source]
  cases dijkstra g cost (fun v => decide (v ∈ internal) && decide (v ≠ source) && decide (v ≠ target)) (some target) pick source with
  | throw e => rfl
  | ub w => rfl
  | ok x =>
    simp only [Res.map_ok, Res.ok_bind]
    have h2 : (x.2.scale k).pred = x.2.pred := rfl
    rw [h2, totalPrize_inUnit, totalPrize_inUnit]
    have : m * totalPrize prize internal + m * totalPrize prize (pathInTreeFromParents x.2.pred g.n target) - inUnit m prize source - inUnit m prize target =
        m * (totalPrize prize internal + totalPrize prize (pathInTreeFromParents x.2.pred g.n target) - prize source - prize target) := by
      simp only [inUnit]; ring
    simp only [this, ge_iff_le, mul_le_iff_of_pos hm]

theorem findCollapsePaths_units (hk : 0 < k) (hm : 0 < m) (g : Graph) (cost prize : Nat → Int) (quota : Int) (internal : List Nat) (useShortest : Bool) {pick : Pick}
    (hp : UnitFree k pick) : findCollapsePaths g (inUnit k cost) (inUnit m prize) (m * quota) internal useShortest pick =
      findCollapsePaths g cost prize quota internal useShortest pick := by
  unfold findCollapsePaths
  simp only [collapseVia_units hm, collapseShortest_units hk hm g cost prize quota internal _ _ hp]

theorem bestCollapseLoop_units (hk : 0 < k) (g : Graph) (cost : Nat → Int) (c : Int) (i : Nat) (l : List (List Nat)) (st : Option Nat × Int) :
    bestCollapseLoop g (inUnit k cost) (k * c) i l (st.1, k * st.2) = (fun x => (x.1, k * x.2)) <$> bestCollapseLoop g cost c i l st := by
  induction l generalizing i st with
  | nil => rfl
  | cons p l ih =>
    simp only [bestCollapseLoop]
    refine bind_map_eq (totalCost_inUnit k g cost p) fun e => ?_
    rw [← ih, ← mul_add]
    simp only [mul_lt_iff_of_pos hk]
    congr 1
    split <;> rfl

theorem collapseStep_units (hk : 0 < k) (hm : 0 < m) (g : Graph) (tour : List Nat) (cost prize : Nat → Int) (quota : Int) (root : Nat) (useShortest : Bool) {pick : Pick}
    (hp : UnitFree k pick) (index : Nat) (st : List Nat × Int) :
    collapseStep g tour (inUnit k cost) (inUnit m prize) (m * quota) root useShortest pick index (st.1, k * st.2) =
      (fun x => (x.1, k * x.2)) <$> collapseStep g tour cost prize quota root useShortest pick index st := by
  unfold collapseStep
  refine bind_map_eq (getSubPathOverTour_units hm tour index prize quota root) fun sp => ?_
  dsimp only
  split
  · refine bind_id_eq (findCollapsePaths_units hk hm g cost prize quota sp.path useShortest hp) fun paths => ?_
    refine bind_map_eq (totalCost_inUnit k g cost sp.path) fun c => ?_
    refine bind_map_eq (bestCollapseLoop_units hk g cost c 0 paths (none, st.2)) fun x => ?_
    dsimp only
    cases x.1 with
    | none => rfl
    | some b =>
      dsimp only
      cases paths[b]? <;> rfl
  · rfl

theorem collapseLoop_units (hk : 0 < k) (hm : 0 < m) (g : Graph) (tour : List Nat) (cost prize : Nat → Int) (quota : Int) (root : Nat) (useShortest : Bool)
    {pick : Nat → Pick} (hp : ∀ i, UnitFree k (pick i)) (n : Nat) (st : List Nat × Int) :
    collapseLoop g tour (inUnit k cost) (inUnit m prize) (m * quota) root useShortest pick n (st.1, k * st.2) =
      (fun x => (x.1, k * x.2)) <$> collapseLoop g tour cost prize quota root useShortest pick n st := by
  induction n generalizing st with
  | zero => rfl
  | succ n ih => exact bind_map_eq (collapseStep_units hk hm g tour cost prize quota root useShortest (hp n) n st) fun st' => ih st'

theorem collapse_units (hk : 0 < k) (hm : 0 < m) (g : Graph) (tour : List Nat) (cost prize : Nat → Int) (quota : Int) (root : Nat) (useShortest : Bool)
    {pick : Nat → Pick} (hp : ∀ i, UnitFree k (pick i)) :
    collapse g tour (inUnit k cost) (inUnit m prize) (m * quota) root useShortest pick = collapse g tour cost prize quota root useShortest pick := by
  unfold collapse
  rw [← id_map (totalCost g cost tour >>= _)]
  refine bind_map_eq (totalCost_inUnit k g cost tour) fun c => ?_
  exact bind_map_eq (collapseLoop_units hk hm g tour cost prize quota root useShortest hp tour.length (tour, c)) fun x => rfl

theorem extendUntilFeasibleLoop_units (h : Rescaled O k m s) (hm : 0 < m) (g : Graph) (cost prize : Nat → Int) (quota : Int) (root : Nat) (depth : Int) (rem : Nat)
    (step : Int) (tour : List Nat) :
    extendUntilFeasibleLoop O g (inUnit k cost) (inUnit m prize) (m * quota) root depth rem step tour = extendUntilFeasibleLoop O g cost prize quota root depth rem step tour := by
  induction rem generalizing step tour with
  | zero => rfl
  | succ rem ih =>
    simp only [extendUntilFeasibleLoop]
    rw [pathExtensionUntil_units h hm]
    congr 1
    funext t
    rw [← id_map (totalPrizeOfTour prize t >>= _)]
    refine bind_map_eq (totalPrizeOfTour_inUnit m prize t) fun p => ?_
    rw [id_map]
    simp only [ge_iff_le, mul_le_iff_of_pos hm, ih]

theorem pingPongLoop_units (h : Rescaled O k m s) (hk : 0 < k) (hm : 0 < m) (g : Graph) (cost prize : Nat → Int) (quota : Int) (root : Nat) (useShortest : Bool)
    {pick : Nat → Nat → Pick} (hp : ∀ i j, UnitFree k (pick i j)) (depth : Int) (rem : Nat) (step : Int) (st : List Nat × Int) :
    pingPongLoop O g (inUnit k cost) (inUnit m prize) (m * quota) root useShortest pick depth rem step (st.1, k * st.2) =
      pingPongLoop O g cost prize quota root useShortest pick depth rem step st := by
  induction rem generalizing step st with
  | zero => rfl
  | succ rem ih =>
    obtain ⟨best, bestCost⟩ := st
    simp only [pingPongLoop]
    rw [pathExtension_units h hm]
    congr 1
    funext t
    rw [collapse_units hk hm g t cost prize quota root useShortest (hp rem)]
    congr 1
    funext t
    rw [← id_map (totalCost g cost t >>= _)]
    refine bind_map_eq (totalCost_inUnit k g cost t) fun c => ?_
    rw [id_map]
    simp only [mul_lt_iff_of_pos hk]
    split
    · exact ih _ (reorderTourFromRoot t root, c)
    · exact ih _ (best, bestCost)

theorem pathExtensionCollapse_units (h : Rescaled O k m s) (hk : 0 < k) (hm : 0 < m) (g : Graph) (tour : List Nat) (cost prize : Nat → Int) (quota : Int) (root : Nat)
    (useShortest : Bool) {pick0 : Nat → Pick} {pick : Nat → Nat → Pick} (hp0 : ∀ i, UnitFree k (pick0 i)) (hp : ∀ i j, UnitFree k (pick i j)) (depth step : Int) :
    pathExtensionCollapse O g tour (inUnit k cost) (inUnit m prize) (m * quota) root useShortest pick0 pick depth step =
      pathExtensionCollapse O g tour cost prize quota root useShortest pick0 pick depth step := by
  unfold pathExtensionCollapse
  rw [← id_map (totalPrizeOfTour prize tour >>= _)]
  refine bind_map_eq (totalPrizeOfTour_inUnit m prize tour) fun p => ?_
  rw [id_map]
  simp only [ge_iff_le, mul_le_iff_of_pos hm, extendUntilFeasibleLoop_units h hm]
  have key : ∀ x : List Nat × Bool, (if x.2 = false then pure []
      else do
        let best ← collapse g x.1 (inUnit k cost) (inUnit m prize) (m * quota) root useShortest pick0
        let bestCost ← totalCost g (inUnit k cost) best
        let best ← pingPongLoop O g (inUnit k cost) (inUnit m prize) (m * quota) root useShortest pick depth step.toNat 1 (reorderTourFromRoot best root, bestCost)
        pure (reorderTourFromRoot best root) : Res (List Nat)) = (if x.2 = false then pure []
      else do
        let best ← collapse g x.1 cost prize quota root useShortest pick0
        let bestCost ← totalCost g cost best
        let best ← pingPongLoop O g cost prize quota root useShortest pick depth step.toNat 1 (reorderTourFromRoot best root, bestCost)
        pure (reorderTourFromRoot best root)) := by
    intro x
    split
    · rfl
    · rw [collapse_units hk hm g x.1 cost prize quota root useShortest hp0]
      congr 1
      funext b
      rw [← id_map (totalCost g cost b >>= _)]
      refine bind_map_eq (totalCost_inUnit k g cost b) fun c => ?_
      rw [id_map]
      rw [pingPongLoop_units h hk hm g cost prize quota root useShortest hp depth step.toNat 1 (reorderTourFromRoot b root, c)]
  split
  · exact key (tour, true)
  · congr 1
    funext x
    exact key x

end Collapse

/-! ### Extension by unitary gain: the prize is in the numerator -/

section Gain
variable {O : FloatOps F} {k m : Int} {s : F → F}

/-- An entry of the gain map with the gain in other units. -/
def GainEntry.scale (s : F → F) (e : GainEntry F) : GainEntry F := { e with value := s e.value }

/-- The gain map with gains in other units. -/
def scaleGains (s : F → F) (gm : GainMap F) : GainMap F := fun v => (gm v).map (GainEntry.scale s)

theorem gainLoop_units (h : Rescaled O m k s) (g : Graph) (cost prize : Nat → Int) (v i u : Nat) (l : List Nat) (st : GainEntry F) :
    gainLoop O g (inUnit k cost) (inUnit m prize) v i u l (st.scale s) = GainEntry.scale s <$> gainLoop O g cost prize v i u l st := by
  induction l generalizing i u st with
  | nil => rfl
  | cons w l ih =>
    simp only [gainLoop]
    refine bind_id_eq rfl fun uv => bind_id_eq rfl fun vw => bind_id_eq rfl fun uw => ?_
    cases uw with
    | none => rfl
    | some euw =>
      cases vw with
      | none => exact ih _ _ _
      | some evw =>
        cases uv with
        | none => exact ih _ _ _
        | some euv =>
          dsimp only
          have hg : unitaryGain O (inUnit m prize v) (inUnit k cost euw) (inUnit k cost euv) (inUnit k cost evw) =
              s (unitaryGain O (prize v) (cost euw) (cost euv) (cost evw)) := by
            unfold unitaryGain
            rw [← h.ratio]
            simp only [inUnit]
            congr 2
            ring
          rw [hg, ← ih]
          congr 1
          have : O.lt (st.scale s).value (s (unitaryGain O (prize v) (cost euw) (cost euv) (cost evw))) =
              O.lt st.value (unitaryGain O (prize v) (cost euw) (cost euv) (cost evw)) := h.lt _ _
          rw [this]
          split <;> rfl

theorem unitaryGainOfVertex_units (h : Rescaled O m k s) (g : Graph) (tour : List Nat) (cost prize : Nat → Int) (v : Nat) :
    unitaryGainOfVertex O g tour (inUnit k cost) (inUnit m prize) v = GainEntry.scale s <$> unitaryGainOfVertex O g tour cost prize v := by
  cases tour with
  | nil => rfl
  | cons u l =>
    simp only [unitaryGainOfVertex]
    rw [← gainLoop_units h]
    simp [GainEntry.scale, h.zero]

theorem scaleGains_upd (s : F → F) (gm : GainMap F) (v : Nat) (e : GainEntry F) :
    upd (scaleGains s gm) v (some (e.scale s)) = scaleGains s (upd gm v (some e)) := by
  funext u
  simp only [scaleGains, upd]
  split <;> rfl

theorem biggestGainLoop_units (h : Rescaled O m k s) (g : Graph) (tour : List Nat) (cost prize : Nat → Int) (inTour : Nat → Bool) (l : List Nat)
    (st : GainMap F × Option Nat × F) :
    biggestGainLoop O g tour (inUnit k cost) (inUnit m prize) inTour l (scaleGains s st.1, st.2.1, s st.2.2) =
      (fun x => (scaleGains s x.1, x.2.1, s x.2.2)) <$> biggestGainLoop O g tour cost prize inTour l st := by
  induction l generalizing st with
  | nil => rfl
  | cons v l ih =>
    obtain ⟨gm, best, bg⟩ := st
    simp only [biggestGainLoop]
    split
    · exact ih (gm, best, bg)
    · refine bind_map_eq (unitaryGainOfVertex_units h g tour cost prize v) fun e => ?_
      have : (e.scale s).value = s e.value := rfl
      rw [this, h.lt, scaleGains_upd]
      split
      · exact ih (upd gm v (some e), some v, e.value)
      · exact ih (upd gm v (some e), best, bg)

theorem findVertexWithBiggestGain_units (h : Rescaled O m k s) (g : Graph) (tour : List Nat) (cost prize : Nat → Int) (inTour : Nat → Bool) (gm : GainMap F) :
    findVertexWithBiggestGain O g tour (inUnit k cost) (inUnit m prize) inTour (scaleGains s gm) =
      (fun x => (scaleGains s x.1, x.2)) <$> findVertexWithBiggestGain O g tour cost prize inTour gm := by
  unfold findVertexWithBiggestGain
  have := biggestGainLoop_units h g tour cost prize inTour (List.range g.n) (gm, none, O.zero)
  rw [h.zero] at this
  exact bind_map_eq this fun x => rfl

theorem insertBiggestGainVertex_units (s : F → F) (tour : List Nat) (v : Nat) (gm : GainMap F) :
    insertBiggestGainVertex tour v (scaleGains s gm) = insertBiggestGainVertex tour v gm := by
  unfold insertBiggestGainVertex scaleGains
  cases gm v <;> rfl

theorem calculateAverageGain_units (h : Rescaled O m k s) (n : Nat) (inTour : Nat → Bool) (gm : GainMap F) :
    calculateAverageGain O n inTour (scaleGains s gm) = s (calculateAverageGain O n inTour gm) := by
  unfold calculateAverageGain
  have hv : (List.range n).filterMap (fun v => if inTour v then none else scaleGains s gm v) =
      ((List.range n).filterMap (fun v => if inTour v then none else gm v)).map (GainEntry.scale s) := by
    rw [List.map_filterMap]
    congr 1
    funext v
    unfold scaleGains
    split <;> rfl
  dsimp only
  rw [hv, List.length_map, ← h.avg]
  have : ∀ (l : List (GainEntry F)) a, (l.map (GainEntry.scale s)).foldl (fun t e => O.add t e.value) (s a) = s (l.foldl (fun t e => O.add t e.value) a) := by
    intro l
    induction l with
    | nil => intro a; rfl
    | cons e l ih =>
      intro a
      simp only [List.map_cons, List.foldl_cons]
      rw [← ih]
      congr 1
      exact h.add _ _
  have h3 := this ((List.range n).filterMap (fun v => if inTour v then none else gm v)) O.zero
  rw [h.zero] at h3
  rw [h3]

theorem extensionUnitaryGainLoop_units (h : Rescaled O m k s) (g : Graph) (cost prize : Nat → Int) (fuel : Nat) (avg : Option F) (inTour : Nat → Bool) (gm : GainMap F)
    (tour : List Nat) :
    extensionUnitaryGainLoop O g (inUnit k cost) (inUnit m prize) fuel (avg.map s) inTour (scaleGains s gm) tour =
      extensionUnitaryGainLoop O g cost prize fuel avg inTour gm tour := by
  induction fuel generalizing avg inTour gm tour with
  | zero => rfl
  | succ fuel ih =>
    simp only [extensionUnitaryGainLoop]
    rw [← id_map (findVertexWithBiggestGain O g tour cost prize inTour gm >>= _)]
    refine bind_map_eq (findVertexWithBiggestGain_units h g tour cost prize inTour gm) fun x => ?_
    obtain ⟨gm', best⟩ := x
    rw [id_map]
    dsimp only
    cases best with
    | none => rfl
    | some v =>
      dsimp only
      rw [calculateAverageGain_units h]
      rw [insertBiggestGainVertex_units]
      have hs : scaleGains s gm' v = (gm' v).map (GainEntry.scale s) := rfl
      have hv : ∀ e : GainEntry F, (e.scale s).value = s e.value := fun _ => rfl
      have hz : ∀ x, O.lt x O.zero = O.lt x (s O.zero) := fun x => by rw [h.zero]
      obtain ⟨o, ho⟩ : ∃ o, gm' v = o := ⟨_, rfl⟩
      cases o with
      | none =>
        cases avg with
        | none =>
          simp only [hs, ho, Option.map_none, hz (s _), h.lt]
          split
          · congr 1
            funext t
            exact ih (some _) _ _ _
          · rfl
        | some a =>
          simp only [hs, ho, Option.map_none, Option.map_some, hz (s _), h.lt]
          split
          · congr 1
            funext t
            exact ih (some _) _ _ _
          · rfl
      | some e =>
        cases avg with
        | none =>
          simp only [hs, ho, Option.map_none, Option.map_some, hv, h.lt]
          split
          · congr 1
            funext t
            exact ih (some _) _ _ _
          · rfl
        | some a =>
          simp only [hs, ho, Option.map_some, hv, h.lt]
          split
          · congr 1
            funext t
            exact ih (some _) _ _ _
          · rfl

theorem extensionUnitaryGain_units (h : Rescaled O m k s) (g : Graph) (tour : List Nat) (cost prize : Nat → Int) :
    extensionUnitaryGain O g tour (inUnit k cost) (inUnit m prize) = extensionUnitaryGain O g tour cost prize :=
  extensionUnitaryGainLoop_units h g cost prize (g.n + 1) none _ (fun _ => none) tour

theorem extensionUntilLoop_units (h : Rescaled O m k s) (hm : 0 < m) (g : Graph) (cost prize : Nat → Int) (quota : Int) (fuel attempts : Nat) (insert : Bool) (cur : Int)
    (inTour : Nat → Bool) (gm : GainMap F) (tour : List Nat) :
    extensionUntilLoop O g (inUnit k cost) (inUnit m prize) (m * quota) fuel attempts insert (m * cur) inTour (scaleGains s gm) tour =
      extensionUntilLoop O g cost prize quota fuel attempts insert cur inTour gm tour := by
  induction fuel generalizing attempts insert cur inTour gm tour with
  | zero => rfl
  | succ fuel ih =>
    simp only [extensionUntilLoop, mul_lt_iff_of_pos hm]
    split
    · rw [← id_map (findVertexWithBiggestGain O g tour cost prize inTour gm >>= _)]
      refine bind_map_eq (findVertexWithBiggestGain_units h g tour cost prize inTour gm) fun x => ?_
      obtain ⟨gm', best⟩ := x
      rw [id_map]
      dsimp only
      cases best with
      | none => rfl
      | some v =>
        dsimp only
        rw [insertBiggestGainVertex_units]
        congr 1
        funext t
        have : m * cur + inUnit m prize v = m * (cur + prize v) := by rw [inUnit, mul_add]
        rw [this]
        exact ih ..
    · rfl

theorem extensionUntil_units (h : Rescaled O m k s) (hm : 0 < m) (g : Graph) (tour : List Nat) (cost prize : Nat → Int) (quota : Int) :
    extensionUntilPrizeFeasible O g tour (inUnit k cost) (inUnit m prize) (m * quota) = extensionUntilPrizeFeasible O g tour cost prize quota := by
  unfold extensionUntilPrizeFeasible
  rw [← id_map (totalPrizeOfTour prize tour >>= _)]
  refine bind_map_eq (totalPrizeOfTour_inUnit m prize tour) fun p => ?_
  rw [id_map]
  exact extensionUntilLoop_units h hm g cost prize quota _ _ _ p _ (fun _ => none) tour

end Gain

end Pctsp
