import Verif.Model.Walk

/-!
# Path extension

Model of the path extension part of include/pctsp/heuristic.hh (lines 41-357) and of src/heuristic.cpp.
-/

namespace Pctsp

/-- The `float` operations used by the heuristics, over an arbitrary carrier: the theorems quantify over it, so they do not
depend on rounding. -/
structure FloatOps (F : Type) where
  zero : F
  ofInt : Int → F
  add : F → F → F
  div : F → F → F
  lt : F → F → Bool

/-- Rational arithmetic followed by a rounding function after every operation.  `rnd` is arbitrary; IEEE single precision
without overflow is an instance, and so is exact arithmetic. -/
def FloatOps.rounded (rnd : Rat → Rat) : FloatOps Rat where
  zero := 0
  ofInt i := rnd i
  add a b := rnd (a + b)
  div a b := rnd (a / b)
  lt a b := decide (a < b)

/-- Exact rational arithmetic, used in examples. -/
def FloatOps.exact : FloatOps Rat := FloatOps.rounded id

variable {F : Type}

/-- `unitaryLoss`, heuristic.cpp 16-23. -/
def unitaryLoss (O : FloatOps F) (externalPrize internalPrize externalCost internalCost : Int) : F :=
  O.div (O.ofInt (externalCost - internalCost)) (O.ofInt (externalPrize - internalPrize))

/-- `numFeasibleExtensions`, heuristic.cpp 25-29. -/
def numFeasibleExtensions (feasible : List Bool) : Nat :=
  feasible.foldl (fun n b => n + b.toNat) 0

/-- `averageUnitaryLoss`, heuristic.cpp 31-37; the two vectors have the same length, here zipped. -/
def averageUnitaryLoss (O : FloatOps F) (loss : List (F × Bool)) : F :=
  O.div (loss.foldl (fun t x => if x.2 then O.add t x.1 else t) O.zero)
    (O.ofInt (numFeasibleExtensions (loss.map (·.2))))

/-- State of the loop of `indexOfSmallestLoss`: `found_smallest_loss`, `smallest_loss`, `index_of_smallest_loss`. -/
structure ArgminState (F : Type) where
  found : Bool
  value : F
  index : Int

/-- The loop of `indexOfSmallestLoss`, heuristic.cpp 43-49. -/
def smallestLossLoop (O : FloatOps F) : Int → List (F × Bool) → ArgminState F → ArgminState F
  | _, [], st => st
  | i, (x, b) :: rest, st =>
    smallestLossLoop O (i + 1) rest
      (if b && (O.lt x st.value || !st.found) then { found := true, value := x, index := i } else st)

/-- `indexOfSmallestLoss`, heuristic.cpp 39-51. -/
def indexOfSmallestLoss (O : FloatOps F) (loss : List (F × Bool)) : Int :=
  (smallestLossLoop O 0 loss { found := false, value := O.zero, index := -1 }).index

/-- Insertion into a sorted list; `std::sort` on vertex numbers returns the sorted permutation. -/
def insertSorted (x : Nat) : List Nat → List Nat
  | [] => [x]
  | y :: ys => if x ≤ y then x :: y :: ys else y :: insertSorted x ys

/-- `std::sort` of a vector of vertices. -/
def sortNat (l : List Nat) : List Nat := l.foldr insertSorted []

/-- The inner part of the merge loop of `std::set_intersection`: the first range starts with `x`; `next` continues with the
rest of the first range. -/
def interInner (x : Nat) (next : List Nat → List Nat) : List Nat → List Nat
  | [] => []
  | y :: ys => if x < y then next (y :: ys) else if y < x then interInner x next ys else x :: next ys

/-- `std::set_intersection` of two sorted ranges (the merge loop of the standard; see `setIntersection_cons_cons`). -/
def setIntersection : List Nat → List Nat → List Nat
  | [] => fun _ => []
  | x :: xs => interInner x (setIntersection xs)

/-- `neighborIntersection`, heuristic.hh 44-61. -/
def neighborIntersection (g : Graph) (u v : Nat) : Res (List Nat) := do
  let us ← g.adjacentVertices u
  let vs ← g.adjacentVertices v
  pure (setIntersection (sortNat us) (sortNat vs))

/-- The loop of `chooseExtensionPathFromCandidates`, heuristic.hh 74-97.  `float prize_diff > 0` compares the converted
integer difference. -/
def chooseLoop (O : FloatOps F) (g : Graph) (cost prize : Nat → Int) (internal : List Nat) :
    Int → List (List Nat) → ArgminState F → Res (ArgminState F)
  | _, [], st => .ok st
  | i, ext :: rest, st =>
    let internalPrize := totalPrize prize internal
    let externalPrize := totalPrize prize ext
    if O.lt O.zero (O.ofInt (externalPrize - internalPrize)) then do
      let externalCost ← totalCost g cost ext
      let internalCost ← totalCost g cost internal
      let loss := unitaryLoss O externalPrize internalPrize externalCost internalCost
      chooseLoop O g cost prize internal (i + 1) rest
        (if O.lt loss st.value || !st.found then { found := true, value := loss, index := i } else st)
    else chooseLoop O g cost prize internal (i + 1) rest st

/-- `chooseExtensionPathFromCandidates`, heuristic.hh 63-99: index (`-1` if there is none) and value. -/
def chooseExtensionPath (O : FloatOps F) (g : Graph) (cost prize : Nat → Int) (candidates : List (List Nat))
    (internal : List Nat) : Res (Int × F) := do
  let st ← chooseLoop O g cost prize internal 0 candidates { found := false, value := O.zero, index := -1 }
  pure (st.index, st.value)

/-- `m` rounds of `it = tour.erase(it)` with the iterator at position `pos`. -/
def eraseLoop {α : Type} (pos : Nat) : Nat → List α → List α
  | 0, l => l
  | m + 1, l => eraseLoop pos m (l.eraseIdx pos)

/-- `tour.insert(it, path.begin(), path.end())` with the iterator at position `pos`. -/
def insertAt {α : Type} (l : List α) (pos : Nat) (path : List α) : List α := l.take pos ++ path ++ l.drop pos

/-- `swapPathsInTour`, heuristic.hh 105-146, for non-negative indices.  Advancing past the end, erasing the end iterator and
incrementing it are undefined. -/
def swapPathsInTour {α : Type} [DecidableEq α] (tour newPath : List α) (first last : Nat) : Res (List α) :=
  if first < last then
    if last < tour.length then
      -- lines 112-115: erase until the iterators meet, then the vertex at `last_it`
      let rest := (eraseLoop first (last - first) tour).eraseIdx first
      -- lines 118-120
      .ok (insertAt rest first newPath)
    else .ub "swapPathsInTour: last_index out of range"
  else
    match tour with
    | [] => .ub "swapPathsInTour: empty tour"
    | root :: _ =>
      if first ≤ tour.length then
        -- lines 129-131 erase positions first..end
        let tour1 := eraseLoop first (tour.length - first) tour
        -- lines 133-139 erase positions 0..last
        if last < tour1.length then
          let tour2 := (eraseLoop 0 last tour1).eraseIdx 0
          -- lines 141-144
          if root ∈ newPath then
            .ok (insertAt tour2 0 (newPath.dropWhile (· ≠ root)) ++ (newPath.takeWhile (· ≠ root) ++ [root]))
          else .ub "swapPathsInTour: increment of new_path.end()"
        else .ub "swapPathsInTour: erase of end()"
      else .ub "swapPathsInTour: first_index out of range"

/-- The external path candidates found with the breadth first search, heuristic.hh 220-229. -/
def bfsCandidates (g : Graph) (prize : Nat → Int) (tour internal : List Nat) (vj : Nat)
    (marked : Nat → Bool) (parent : Nat → Nat) (nbrs : List Nat) : List (List Nat) :=
  nbrs.filterMap fun v =>
    if v ∉ tour ∧ marked v = true then
      let path := pathInTreeFromParents parent g.n v ++ [vj]
      if totalPrize prize path > totalPrize prize internal then some path else none
    else none

/-- The candidate external paths from `vi` to `vj`, heuristic.hh 187-230. -/
def externalCandidates (g : Graph) (prize : Nat → Int) (tour : List Nat) (root : Nat) (depth : Int)
    (vi vj : Nat) (internal : List Nat) : Res (List (List Nat)) := do
  let rootInternal ← isInternalVertexOfWalk internal root
  if depth = 2 ∧ rootInternal = true then
    match ← g.edge vi root with
    | none => pure []
    | some _ =>
      match ← g.edge root vj with
      | none => pure []
      | some _ => pure [[vi, root, vj]]
  else if depth = 2 then do
    let nbrs ← neighborIntersection g vi vj
    pure ((nbrs.filter (fun u => u ∉ tour)).map (fun u => [vi, u, vj]))
  else if depth > 2 ∧ rootInternal = false then do
    let (marked, parent) ← breadthFirstSearch g vi (fun h => decide (h ∈ tour)) (fun _ => 0) (depth - 1)
    let nbrs ← g.adjacentVertices vj
    pure (bfsCandidates g prize tour internal vj marked parent nbrs)
  else pure []

/-- One entry of the three vectors `unitary_loss`, `is_feasible_extension`, `extension_paths`. -/
structure ExtEntry (F : Type) where
  loss : F
  feasible : Bool
  path : List Nat

/-- The body of the loop of `findExtensionPaths` for one position, heuristic.hh 175-242 (`0 ≤ i < k`, `0 ≤ step`). -/
def extensionEntry (O : FloatOps F) (g : Graph) (tour : List Nat) (cost prize : Nat → Int) (root : Nat)
    (step : Nat) (depth : Int) (i : Nat) : Res (ExtEntry F) :=
  let k := tour.length - 1
  let j := (i + step) % k
  match tour[i]?, tour[j]? with
  | some vi, some vj => do
    let internal ← getSubpathOfCycle tour i j
    let cands ← externalCandidates g prize tour root depth vi vj internal
    let (index, value) ← chooseExtensionPath O g cost prize cands internal
    if index ≥ 0 then
      match cands[index.toNat]? with
      | some p => pure { loss := value, feasible := true, path := p }
      | none => .ub "findExtensionPaths: candidate index out of range"
    else pure { loss := O.zero, feasible := false, path := [] }
  | _, _ => .ub "findExtensionPaths: advance past the end"

/-- `findExtensionPaths`, heuristic.hh 154-244: all entries, `i = 0..k-1`. -/
def findExtensionPaths (O : FloatOps F) (g : Graph) (tour : List Nat) (cost prize : Nat → Int) (root : Nat)
    (step : Nat) (depth : Int) : Res (List (ExtEntry F)) :=
  mapRes (extensionEntry O g tour cost prize root step depth) (List.range (tour.length - 1))

/-- The comparison `step_size < tour.size() - 1` (heuristic.hh 262 and 335) for a non-empty tour.  The right side is an
unsigned number, so a negative step is converted to a huge number and the comparison is false. -/
def stepFits (step : Int) (tour : List Nat) : Bool :=
  decide (0 ≤ step) && decide (step < (tour.length : Int) - 1)

/-- The while loop of `pathExtension`, heuristic.hh 262-300.  `rem` counts the remaining rounds (`i < num_vertices`), `isFirst`
is `i == 0`, `avg` holds `avg_loss` once it is calculated.  For an empty tour `tour.size() - 1` is the largest `size_t`, so
the guard holds for every step except `-1` and the construction of a vector of length `-1` throws. -/
def pathExtensionLoop (O : FloatOps F) (g : Graph) (cost prize : Nat → Int) (root : Nat) (step depth : Int) :
    Nat → Bool → Option F → List Nat → Res (List Nat)
  | 0, _, _, tour => .ok tour
  | rem + 1, isFirst, avg, tour =>
    if tour = [] then (if step = -1 then .ok tour else .throw .lengthError)
    else if stepFits step tour = false then .ok tour
    else do
      let entries ← findExtensionPaths O g tour cost prize root step.toNat depth
      let lossVec := entries.map (fun e => (e.loss, e.feasible))
      let numFeasible := numFeasibleExtensions (entries.map (·.feasible))
      if numFeasible > 0 then
        let avgLoss := match avg with
          | some a => a
          | none => averageUnitaryLoss O lossVec
        let idx := indexOfSmallestLoss O lossVec
        if idx < 0 then .ub "pathExtension: negative index"
        else
          match entries[idx.toNat]? with
          | none => .ub "pathExtension: index out of range"
          | some e =>
            if (numFeasible = 1 ∧ isFirst = true) ∨ O.lt e.loss avgLoss = true then do
              let tour' ← swapPathsInTour tour e.path idx.toNat (idx.toNat + step.toNat)
              pathExtensionLoop O g cost prize root step depth rem false (some avgLoss) tour'
            else .ok tour
      else .ok tour

/-- `pathExtension`, heuristic.hh 246-301. -/
def pathExtension (O : FloatOps F) (g : Graph) (tour : List Nat) (cost prize : Nat → Int) (root : Nat)
    (step depth : Int) : Res (List Nat) :=
  pathExtensionLoop O g cost prize root step depth g.n true none tour

/-- `extensionUnitaryLoss`, heuristic.hh 303-314. -/
def extensionUnitaryLoss (O : FloatOps F) (g : Graph) (tour : List Nat) (cost prize : Nat → Int) (root : Nat) :
    Res (List Nat) :=
  pathExtension O g tour cost prize root 1 2

/-- The while loop of `pathExtensionUntilPrizeFeasible`, heuristic.hh 335-356, entered with `prize < quota`.  The variable
`prize` is not updated in the loop, so that part of the guard does not change any more; a round that finds no
feasible extension is the last one. -/
def pathExtensionUntilLoop (O : FloatOps F) (g : Graph) (cost prize : Nat → Int) (root : Nat) (step depth : Int) :
    Nat → List Nat → Res (List Nat)
  | 0, tour => .ok tour
  | rem + 1, tour =>
    if stepFits step tour = false then .ok tour
    else do
      let entries ← findExtensionPaths O g tour cost prize root step.toNat depth
      let numFeasible := numFeasibleExtensions (entries.map (·.feasible))
      if numFeasible > 0 then
        let idx := indexOfSmallestLoss O (entries.map (fun e => (e.loss, e.feasible)))
        if idx < 0 then .ub "pathExtensionUntilPrizeFeasible: negative index"
        else
          match entries[idx.toNat]? with
          | none => .ub "pathExtensionUntilPrizeFeasible: index out of range"
          | some e => do
            let tour' ← swapPathsInTour tour e.path idx.toNat ((idx.toNat + step.toNat) % (tour.length - 1))
            pathExtensionUntilLoop O g cost prize root step depth rem tour'
      else .ok tour

/-- `pathExtensionUntilPrizeFeasible`, heuristic.hh 319-357. -/
def pathExtensionUntilPrizeFeasible (O : FloatOps F) (g : Graph) (tour : List Nat) (cost prize : Nat → Int)
    (root : Nat) (quota step depth : Int) : Res (List Nat) := do
  let p ← totalPrizeOfTour prize tour
  if p < quota then pathExtensionUntilLoop O g cost prize root step depth g.n tour
  else pure tour

end Pctsp
