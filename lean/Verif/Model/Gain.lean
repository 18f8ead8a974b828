import Verif.Model.Extension

/-!
# Extension by unitary gain

Model of include/pctsp/heuristic.hh 360-580.
-/

namespace Pctsp

variable {F : Type}

/-- `unitaryGain`, heuristic.cpp 9-14. -/
def unitaryGain (O : FloatOps F) (prizeV costUW costUV costVW : Int) : F :=
  O.div (O.ofInt prizeV) (O.ofInt (costUV + costVW - costUW))

/-- `ExtensionVertex` as returned by `unitaryGainOfVertex`; the index is `none` while the local variable
`index_of_extension` (heuristic.hh 377) is uninitialised. -/
structure GainEntry (F : Type) where
  value : F
  index : Option Nat

/-- The loop of `unitaryGainOfVertex`, heuristic.hh 382-411: `u` is the current tour vertex, the list the rest of the tour, `i` the
position of `u`.  The calls `edge(u, v, g)` etc. are made before the test that `(u, w)` is an edge. -/
def gainLoop (O : FloatOps F) (g : Graph) (cost prize : Nat → Int) (v : Nat) :
    Nat → Nat → List Nat → GainEntry F → Res (GainEntry F)
  | _, _, [], st => .ok st
  | i, u, w :: rest, st => do
    let uv ← g.edge u v
    let vw ← g.edge v w
    let uw ← g.edge u w
    match uw with
    | none => .throw (.invalidArgument u w)
    | some euw =>
      match vw, uv with
      | some evw, some euv =>
        let gain := unitaryGain O (prize v) (cost euw) (cost euv) (cost evw)
        gainLoop O g cost prize v (i + 1) w rest
          (if O.lt st.value gain then { value := gain, index := some i } else st)
      | _, _ => gainLoop O g cost prize v (i + 1) w rest st

/-- `unitaryGainOfVertex`, heuristic.hh 360-416: reads `*tour.begin()`. -/
def unitaryGainOfVertex (O : FloatOps F) (g : Graph) (tour : List Nat) (cost prize : Nat → Int) (v : Nat) :
    Res (GainEntry F) :=
  match tour with
  | [] => .ub "unitaryGainOfVertex: empty tour"
  | u :: rest => gainLoop O g cost prize v 0 u rest { value := O.zero, index := none }

/-- The gain map (`std::map`), heuristic.hh 499; `none` means no entry. -/
abbrev GainMap (F : Type) := Nat → Option (GainEntry F)

/-- The loop of `findVertexWithBiggestGain`, heuristic.hh 451-464, over the vertices of the graph.  The state is the gain map and
the best vertex so far with its gain (`none` until `found_biggest_gain`). -/
def biggestGainLoop (O : FloatOps F) (g : Graph) (tour : List Nat) (cost prize : Nat → Int) (inTour : Nat → Bool) :
    List Nat → GainMap F × Option Nat × F → Res (GainMap F × Option Nat × F)
  | [], st => .ok st
  | v :: vs, (gm, best, bestGain) =>
    if inTour v then biggestGainLoop O g tour cost prize inTour vs (gm, best, bestGain)
    else do
      let e ← unitaryGainOfVertex O g tour cost prize v
      let gm := upd gm v (some e)
      if O.lt bestGain e.value then biggestGainLoop O g tour cost prize inTour vs (gm, some v, e.value)
      else biggestGainLoop O g tour cost prize inTour vs (gm, best, bestGain)

/-- `findVertexWithBiggestGain`, heuristic.hh 433-469.  Returns the updated gain map and the vertex, or `none` for the
`NoGainVertexFoundException`, which both callers catch. -/
def findVertexWithBiggestGain (O : FloatOps F) (g : Graph) (tour : List Nat) (cost prize : Nat → Int)
    (inTour : Nat → Bool) (gm : GainMap F) : Res (GainMap F × Option Nat) := do
  let (gm, best, _) ← biggestGainLoop O g tour cost prize inTour (List.range g.n) (gm, none, O.zero)
  pure (gm, best)

/-- `insertBiggestGainVertexIntoTour`, heuristic.hh 471-485.  A missing map entry would be value initialised by `operator[]`, so
its index would be 0; using the uninitialised index is undefined, and so is advancing past the end. -/
def insertBiggestGainVertex (tour : List Nat) (v : Nat) (gm : GainMap F) : Res (List Nat) :=
  let index : Res Nat := match gm v with
    | none => .ok 0
    | some e => match e.index with
      | none => .ub "insertBiggestGainVertexIntoTour: uninitialised index"
      | some i => .ok i
  match index with
  | .ok i =>
    if i + 1 ≤ tour.length then .ok (tour.take (i + 1) ++ v :: tour.drop (i + 1))
    else .ub "insertBiggestGainVertexIntoTour: advance past the end"
  | .throw e => .throw e
  | .ub w => .ub w

/-- `calculateAverageGain`, heuristic.hh 418-431: iterates over the map in vertex order. -/
def calculateAverageGain (O : FloatOps F) (n : Nat) (inTour : Nat → Bool) (gm : GainMap F) : F :=
  let vals := (List.range n).filterMap (fun v => if inTour v then none else gm v)
  O.div (vals.foldl (fun t e => O.add t e.value) O.zero) (O.ofInt vals.length)

/-- The while loop of `extensionUnitaryGain`, heuristic.hh 510-533.  `avg` is `avg_gain` once calculated. -/
def extensionUnitaryGainLoop (O : FloatOps F) (g : Graph) (cost prize : Nat → Int) :
    Nat → Option F → (Nat → Bool) → GainMap F → List Nat → Res (List Nat)
  | 0, _, _, _, _ => .ub "extensionUnitaryGain: out of fuel"
  | fuel + 1, avg, inTour, gm, tour => do
    let (gm, best) ← findVertexWithBiggestGain O g tour cost prize inTour gm
    match best with
    | none => pure tour
    | some v =>
      let biggest := match gm v with
        | some e => e.value
        | none => O.zero
      let avgGain := match avg with
        | some a => a
        | none => calculateAverageGain O g.n inTour gm
      if O.lt avgGain biggest then do
        let tour' ← insertBiggestGainVertex tour v gm
        extensionUnitaryGainLoop O g cost prize fuel (some avgGain) (upd inTour v true) gm tour'
      else pure tour

/-- `extensionUnitaryGain`, heuristic.hh 488-534.  The loop has no bound in the code; `extensionUnitaryGain_terminates` shows that
`n + 1` rounds are enough. -/
def extensionUnitaryGain (O : FloatOps F) (g : Graph) (tour : List Nat) (cost prize : Nat → Int) : Res (List Nat) :=
  extensionUnitaryGainLoop O g cost prize (g.n + 1) none (fun v => decide (v ∈ tour)) (fun _ => none) tour

/-- The while loop of `extensionUntilPrizeFeasible`, heuristic.hh 562-579.  `cur` is the variable `prize`; `insert` is
`insert_a_vertex` (`attempts <= num_vertices` after an insertion). -/
def extensionUntilLoop (O : FloatOps F) (g : Graph) (cost prize : Nat → Int) (quota : Int) :
    Nat → Nat → Bool → Int → (Nat → Bool) → GainMap F → List Nat → Res (List Nat)
  | 0, _, _, _, _, _, _ => .ub "extensionUntilPrizeFeasible: out of fuel"
  | fuel + 1, attempts, insert, cur, inTour, gm, tour =>
    if cur < quota ∧ insert = true then do
      let (gm, best) ← findVertexWithBiggestGain O g tour cost prize inTour gm
      match best with
      | none => pure tour
      | some v => do
        let tour' ← insertBiggestGainVertex tour v gm
        extensionUntilLoop O g cost prize quota fuel (attempts + 1) (decide (attempts + 1 ≤ g.n)) (cur + prize v)
          (upd inTour v true) gm tour'
    else pure tour

/-- `extensionUntilPrizeFeasible`, heuristic.hh 536-580. -/
def extensionUntilPrizeFeasible (O : FloatOps F) (g : Graph) (tour : List Nat) (cost prize : Nat → Int)
    (quota : Int) : Res (List Nat) := do
  let cur ← totalPrizeOfTour prize tour
  extensionUntilLoop O g cost prize quota (g.n + 2) 0 true cur (fun v => decide (v ∈ tour)) (fun _ => none) tour

end Pctsp
