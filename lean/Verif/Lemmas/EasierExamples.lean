import Verif.Spec.Easier
import Verif.Lemmas.DomExamples

/-!
# Instances that get easier
-/

namespace Pctsp

namespace DomData

variable {n : Nat} [NeZero n] {I J : DomData n}

theorem easier_quota (h : I.Good) {q q' : Int} (hq : q' ≤ q) : (setting h q).Easier (setting h q') .quota :=
  ⟨hq, ⟨rfl, rfl, rfl, rfl, rfl, rfl, rfl, rfl, rfl, rfl⟩, ⟨rfl, rfl, rfl⟩, ⟨rfl, rfl, rfl, rfl⟩, ⟨rfl, rfl, rfl⟩⟩

theorem easier_prize (h : I.Good) {ps : List Int} (h' : DomData.Good { I with prizes := ps }) (q : Int) (hp : ∀ x : Fin n, I.π x ≤ ps.getD x.val 0) :
    (setting h q).Easier (setting h' q) .prize :=
  ⟨hp, rfl, ⟨rfl, rfl, rfl, rfl, rfl, rfl, rfl, rfl, rfl, rfl⟩, ⟨rfl, rfl, rfl⟩, ⟨rfl, rfl, rfl, rfl⟩⟩

theorem easier_cost (h : I.Good) (h' : J.Good) (q : Int) (he : J.edges.map Prod.fst = I.edges.map Prod.fst) (hp : J.prizes = I.prizes)
    (hw : ∀ x y, J.w x y ≤ I.w x y) : (setting h q).Easier (setting h' q) .cost := by
  have hπ : J.π = I.π := by unfold π; rw [hp]
  have hn : J.lab.nx = I.lab.nx := by unfold lab labGraph; rw [he]
  refine ⟨hw, rfl, ⟨rfl, rfl, rfl, rfl, rfl, rfl, rfl, rfl, rfl, rfl⟩, ⟨hn, he, ?_⟩, ⟨?_, hπ, ?_⟩⟩
  · change nxBfsTree J.lab.nx 0 = nxBfsTree I.lab.nx 0
    rw [hn]
  · change J.lab.prizes = I.lab.prizes
    unfold lab labGraph; rw [hπ]
  · change namedPrize J.π = namedPrize I.π
    rw [hπ]

theorem easier_edge (h : I.Good) (h' : J.Good) (q : Int) (e : Fin n × Fin n) (he : J.edges.map Prod.fst = I.edges.map Prod.fst ++ [e])
    (hp : J.prizes = I.prizes) (hw : ∀ x y, AdjIn I.lab.edges x y → J.w x y = I.w x y) : (setting h q).Easier (setting h' q) .edge := by
  have hπ : J.π = I.π := by unfold π; rw [hp]
  refine ⟨⟨e, he⟩, hw, rfl, ⟨rfl, rfl, rfl, rfl, rfl, rfl, rfl, rfl, rfl, rfl⟩, ⟨?_, hπ, ?_⟩⟩
  · change J.lab.prizes = I.lab.prizes
    unfold lab labGraph; rw [hπ]
  · change namedPrize J.π = namedPrize I.π
    rw [hπ]

end DomData

/-- An instance, before an edge is added. -/
def edge1Data : DomData 5 where
  edges := [((0, 1), 2), ((0, 2), 2), ((0, 3), 5), ((1, 2), 7), ((1, 4), 2), ((2, 3), 8), ((2, 4), 2), ((3, 4), 4)]
  prizes := [1, 1, 0, 2, 3]
  table := [(5, 0, [5]), (1, 2, [5, 1]), (2, 2, [5, 2]), (6, 2, [5, 1, 6]), (7, 2, [5, 2, 7]), (0, 4, [5, 1, 6, 0]), (4, 4, [5, 1, 6, 4]), (9, 4, [5, 1,
    6, 4, 9]), (3, 5, [5, 3]), (8, 5, [5, 3, 8])]

theorem edge1Data_good : edge1Data.Good := by
  constructor <;> decide +kernel

def edge1EasyData : DomData 5 where
  edges := [((0, 1), 2), ((0, 2), 2), ((0, 3), 5), ((1, 2), 7), ((1, 4), 2), ((2, 3), 8), ((2, 4), 2), ((3, 4), 4), ((1, 3), 6)]
  prizes := [1, 1, 0, 2, 3]
  table := [(5, 0, [5]), (1, 2, [5, 1]), (2, 2, [5, 2]), (6, 2, [5, 1, 6]), (7, 2, [5, 2, 7]), (0, 4, [5, 1, 6, 0]), (4, 4, [5, 1, 6, 4]), (9, 4, [5, 1,
    6, 4, 9]), (3, 5, [5, 3]), (8, 5, [5, 3, 8])]

theorem edge1EasyData_good : edge1EasyData.Good := by
  constructor <;> decide +kernel

theorem edge1_easier : (DomData.setting edge1Data_good 7).Easier (DomData.setting edge1EasyData_good 7) .edge :=
  DomData.easier_edge _ _ _ (1, 3) rfl rfl (by decide +kernel)

theorem edge1_bpec : (DomData.setting edge1Data_good 7).Finds .bfsPathExtensionCollapse 13 :=
  DomData.finds _ [1, 4, 3] (by decide +kernel) (by decide) (by decide +kernel) (by decide) (by decide +kernel) (by decide +kernel)

theorem edge1_bpec' : (DomData.setting edge1EasyData_good 7).Finds .bfsPathExtensionCollapse 16 :=
  DomData.finds _ [1, 3, 4, 2] (by decide +kernel) (by decide) (by decide +kernel) (by decide) (by decide +kernel) (by decide +kernel)

/-- When an edge is added, path extension and collapse from a cycle of the breadth first search finds a dearer tour. -/
theorem edge_dearer_bpec : CanGetDearer .bfsPathExtensionCollapse .edge :=
  ⟨_, _, _, _, _, _, _, _, _, edge1_easier, edge1_bpec, edge1_bpec', by decide⟩

theorem edge1_sbl : (DomData.setting edge1Data_good 7).Finds .suurballesHeuristic 13 :=
  DomData.finds _ [1, 4, 3] (by decide +kernel) (by decide) (by decide +kernel) (by decide) (by decide +kernel) (by decide +kernel)

theorem edge1_sbl' : (DomData.setting edge1EasyData_good 7).Misses .suurballesHeuristic :=
  DomData.misses _ [] (by decide +kernel) (by decide +kernel)

/-- When an edge is added, Suurballe's heuristic loses its tour. -/
theorem edge_lost_sbl : CanGetLost .suurballesHeuristic .edge :=
  ⟨_, _, _, _, _, _, _, _, edge1_easier, edge1_sbl, edge1_sbl'⟩

theorem edge1_sec : (DomData.setting edge1Data_good 7).Finds .suurballesExtensionCollapse 13 :=
  DomData.finds _ [1, 4, 3] (by decide +kernel) (by decide) (by decide +kernel) (by decide) (by decide +kernel) (by decide +kernel)

theorem edge1_sec' : (DomData.setting edge1EasyData_good 7).Misses .suurballesExtensionCollapse :=
  DomData.misses _ [0, 2, 4, 1, 0] (by decide +kernel) (by decide +kernel)

/-- When an edge is added, extension and collapse from the tour of disjoint paths loses its tour. -/
theorem edge_lost_sec : CanGetLost .suurballesExtensionCollapse .edge :=
  ⟨_, _, _, _, _, _, _, _, edge1_easier, edge1_sec, edge1_sec'⟩

theorem edge1_spec : (DomData.setting edge1Data_good 7).Finds .suurballesPathExtensionCollapse 13 :=
  DomData.finds _ [1, 4, 3] (by decide +kernel) (by decide) (by decide +kernel) (by decide) (by decide +kernel) (by decide +kernel)

theorem edge1_spec' : (DomData.setting edge1EasyData_good 7).Finds .suurballesPathExtensionCollapse 16 :=
  DomData.finds _ [2, 4, 3, 1] (by decide +kernel) (by decide) (by decide +kernel) (by decide) (by decide +kernel) (by decide +kernel)

/-- When an edge is added, path extension and collapse from the tour of disjoint paths finds a dearer tour. -/
theorem edge_dearer_spec : CanGetDearer .suurballesPathExtensionCollapse .edge :=
  ⟨_, _, _, _, _, _, _, _, _, edge1_easier, edge1_spec, edge1_spec', by decide⟩

/-- An instance, before a cost falls. -/
def cost1Data : DomData 5 where
  edges := [((0, 1), 7), ((0, 2), 5), ((0, 3), 5), ((1, 2), 4), ((1, 3), 5), ((1, 4), 6), ((2, 3), 2), ((2, 4), 2), ((3, 4), 6)]
  prizes := [3, 3, 3, 1, 2]
  table := [(5, 0, [5]), (2, 5, [5, 2]), (3, 5, [5, 3]), (7, 5, [5, 2, 7]), (8, 5, [5, 3, 8]), (1, 7, [5, 1]), (4, 7, [5, 2, 7, 4]), (6, 7, [5, 1, 6]),
    (9, 7, [5, 2, 7, 4, 9]), (0, 10, [5, 2, 7, 0])]

theorem cost1Data_good : cost1Data.Good := by
  constructor <;> decide +kernel

def cost1EasyData : DomData 5 where
  edges := [((0, 1), 7), ((0, 2), 5), ((0, 3), 5), ((1, 2), 4), ((1, 3), 3), ((1, 4), 6), ((2, 3), 2), ((2, 4), 2), ((3, 4), 6)]
  prizes := [3, 3, 3, 1, 2]
  table := [(5, 0, [5]), (2, 5, [5, 2]), (3, 5, [5, 3]), (7, 5, [5, 2, 7]), (8, 5, [5, 3, 8]), (1, 7, [5, 1]), (4, 7, [5, 2, 7, 4]), (6, 7, [5, 1, 6]),
    (9, 7, [5, 2, 7, 4, 9]), (0, 10, [5, 2, 7, 0])]

theorem cost1EasyData_good : cost1EasyData.Good := by
  constructor <;> decide +kernel

theorem cost1_easier : (DomData.setting cost1Data_good 8).Easier (DomData.setting cost1EasyData_good 8) .cost :=
  DomData.easier_cost _ _ _ rfl rfl (by decide +kernel)

theorem cost1_bec : (DomData.setting cost1Data_good 8).Finds .bfsExtensionCollapse 16 :=
  DomData.finds _ [1, 2] (by decide +kernel) (by decide) (by decide +kernel) (by decide) (by decide +kernel) (by decide +kernel)

theorem cost1_bec' : (DomData.setting cost1EasyData_good 8).Finds .bfsExtensionCollapse 17 :=
  DomData.finds _ [3, 1, 2] (by decide +kernel) (by decide) (by decide +kernel) (by decide) (by decide +kernel) (by decide +kernel)

/-- When a cost falls, extension and collapse from a cycle of the breadth first search finds a dearer tour. -/
theorem cost_dearer_bec : CanGetDearer .bfsExtensionCollapse .cost :=
  ⟨_, _, _, _, _, _, _, _, _, cost1_easier, cost1_bec, cost1_bec', by decide⟩

theorem cost1_sbl : (DomData.setting cost1Data_good 8).Finds .suurballesHeuristic 16 :=
  DomData.finds _ [2, 1] (by decide +kernel) (by decide) (by decide +kernel) (by decide) (by decide +kernel) (by decide +kernel)

theorem cost1_sbl' : (DomData.setting cost1EasyData_good 8).Finds .suurballesHeuristic 18 :=
  DomData.finds _ [3, 4, 2] (by decide +kernel) (by decide) (by decide +kernel) (by decide) (by decide +kernel) (by decide +kernel)

/-- When a cost falls, Suurballe's heuristic finds a dearer tour. -/
theorem cost_dearer_sbl : CanGetDearer .suurballesHeuristic .cost :=
  ⟨_, _, _, _, _, _, _, _, _, cost1_easier, cost1_sbl, cost1_sbl', by decide⟩

theorem cost1_sec : (DomData.setting cost1Data_good 8).Finds .suurballesExtensionCollapse 16 :=
  DomData.finds _ [2, 1] (by decide +kernel) (by decide) (by decide +kernel) (by decide) (by decide +kernel) (by decide +kernel)

theorem cost1_sec' : (DomData.setting cost1EasyData_good 8).Finds .suurballesExtensionCollapse 17 :=
  DomData.finds _ [3, 1, 2] (by decide +kernel) (by decide) (by decide +kernel) (by decide) (by decide +kernel) (by decide +kernel)

/-- When a cost falls, extension and collapse from the tour of disjoint paths finds a dearer tour. -/
theorem cost_dearer_sec : CanGetDearer .suurballesExtensionCollapse .cost :=
  ⟨_, _, _, _, _, _, _, _, _, cost1_easier, cost1_sec, cost1_sec', by decide⟩

theorem cost1_spec : (DomData.setting cost1Data_good 8).Finds .suurballesPathExtensionCollapse 16 :=
  DomData.finds _ [2, 1] (by decide +kernel) (by decide) (by decide +kernel) (by decide) (by decide +kernel) (by decide +kernel)

theorem cost1_spec' : (DomData.setting cost1EasyData_good 8).Finds .suurballesPathExtensionCollapse 17 :=
  DomData.finds _ [3, 1, 2] (by decide +kernel) (by decide) (by decide +kernel) (by decide) (by decide +kernel) (by decide +kernel)

/-- When a cost falls, path extension and collapse from the tour of disjoint paths finds a dearer tour. -/
theorem cost_dearer_spec : CanGetDearer .suurballesPathExtensionCollapse .cost :=
  ⟨_, _, _, _, _, _, _, _, _, cost1_easier, cost1_spec, cost1_spec', by decide⟩

/-- An instance, before the quota falls. -/
def quota1Data : DomData 6 where
  edges := [((0, 1), 6), ((0, 2), 1), ((0, 5), 1), ((1, 3), 6), ((1, 4), 6), ((1, 5), 1), ((2, 3), 8), ((2, 4), 6), ((2, 5), 5), ((4, 5), 6)]
  prizes := [1, 3, 3, 3, 1, 2]
  table := [(6, 0, [6]), (2, 1, [6, 2]), (5, 1, [6, 5]), (8, 1, [6, 2, 8]), (11, 1, [6, 5, 11]), (0, 2, [6, 2, 8, 0]), (1, 2, [6, 5, 11, 1]), (7, 2, [6,
    5, 11, 1, 7]), (4, 7, [6, 2, 8, 4]), (10, 7, [6, 2, 8, 4, 10]), (3, 8, [6, 5, 11, 1, 7, 3]), (9, 8, [6, 5, 11, 1, 7, 3, 9])]

theorem quota1Data_good : quota1Data.Good := by
  constructor <;> decide +kernel

theorem quota1_easier : (DomData.setting quota1Data_good 10).Easier (DomData.setting quota1Data_good (8)) .quota :=
  DomData.easier_quota _ (by decide)

theorem quota1_bpec : (DomData.setting quota1Data_good 10).Finds .bfsPathExtensionCollapse 15 :=
  DomData.finds _ [2, 4, 1, 5] (by decide +kernel) (by decide) (by decide +kernel) (by decide) (by decide +kernel) (by decide +kernel)

theorem quota1_bpec' : (DomData.setting quota1Data_good 8).Finds .bfsPathExtensionCollapse 17 :=
  DomData.finds _ [2, 3, 1, 5] (by decide +kernel) (by decide) (by decide +kernel) (by decide) (by decide +kernel) (by decide +kernel)

/-- When the quota falls, path extension and collapse from a cycle of the breadth first search finds a dearer tour. -/
theorem quota_dearer_bpec : CanGetDearer .bfsPathExtensionCollapse .quota :=
  ⟨_, _, _, _, _, _, _, _, _, quota1_easier, quota1_bpec, quota1_bpec', by decide⟩

theorem quota1_sec : (DomData.setting quota1Data_good 10).Finds .suurballesExtensionCollapse 15 :=
  DomData.finds _ [2, 4, 1, 5] (by decide +kernel) (by decide) (by decide +kernel) (by decide) (by decide +kernel) (by decide +kernel)

theorem quota1_sec' : (DomData.setting quota1Data_good 8).Finds .suurballesExtensionCollapse 17 :=
  DomData.finds _ [2, 3, 1, 5] (by decide +kernel) (by decide) (by decide +kernel) (by decide) (by decide +kernel) (by decide +kernel)

/-- When the quota falls, extension and collapse from the tour of disjoint paths finds a dearer tour. -/
theorem quota_dearer_sec : CanGetDearer .suurballesExtensionCollapse .quota :=
  ⟨_, _, _, _, _, _, _, _, _, quota1_easier, quota1_sec, quota1_sec', by decide⟩

theorem quota1_spec : (DomData.setting quota1Data_good 10).Finds .suurballesPathExtensionCollapse 15 :=
  DomData.finds _ [2, 4, 1, 5] (by decide +kernel) (by decide) (by decide +kernel) (by decide) (by decide +kernel) (by decide +kernel)

theorem quota1_spec' : (DomData.setting quota1Data_good 8).Finds .suurballesPathExtensionCollapse 17 :=
  DomData.finds _ [2, 3, 1, 5] (by decide +kernel) (by decide) (by decide +kernel) (by decide) (by decide +kernel) (by decide +kernel)

/-- When the quota falls, path extension and collapse from the tour of disjoint paths finds a dearer tour. -/
theorem quota_dearer_spec : CanGetDearer .suurballesPathExtensionCollapse .quota :=
  ⟨_, _, _, _, _, _, _, _, _, quota1_easier, quota1_spec, quota1_spec', by decide⟩

/-- An instance, before an edge is added. -/
def edge2Data : DomData 5 where
  edges := [((0, 2), 6), ((0, 3), 8), ((0, 4), 4), ((1, 2), 8), ((1, 3), 4), ((1, 4), 1), ((2, 3), 4), ((2, 4), 3), ((3, 4), 7)]
  prizes := [3, 0, 2, 2, 1]
  table := [(5, 0, [5]), (4, 4, [5, 4]), (9, 4, [5, 4, 9]), (1, 5, [5, 4, 9, 1]), (6, 5, [5, 4, 9, 1, 6]), (2, 6, [5, 2]), (7, 6, [5, 2, 7]), (3, 8, [5,
    3]), (0, 8, [5, 4, 9, 0]), (8, 8, [5, 3, 8])]

theorem edge2Data_good : edge2Data.Good := by
  constructor <;> decide +kernel

def edge2EasyData : DomData 5 where
  edges := [((0, 2), 6), ((0, 3), 8), ((0, 4), 4), ((1, 2), 8), ((1, 3), 4), ((1, 4), 1), ((2, 3), 4), ((2, 4), 3), ((3, 4), 7), ((0, 1), 2)]
  prizes := [3, 0, 2, 2, 1]
  table := [(5, 0, [5]), (1, 2, [5, 1]), (6, 2, [5, 1, 6]), (4, 3, [5, 1, 6, 4]), (9, 3, [5, 1, 6, 4, 9]), (0, 4, [5, 1, 6, 0]), (2, 6, [5, 2]), (3, 6,
    [5, 1, 6, 3]), (7, 6, [5, 2, 7]), (8, 6, [5, 1, 6, 3, 8])]

theorem edge2EasyData_good : edge2EasyData.Good := by
  constructor <;> decide +kernel

theorem edge2_easier : (DomData.setting edge2Data_good 8).Easier (DomData.setting edge2EasyData_good 8) .edge :=
  DomData.easier_edge _ _ _ (0, 1) rfl rfl (by decide +kernel)

theorem edge2_bec : (DomData.setting edge2Data_good 8).Finds .bfsExtensionCollapse 19 :=
  DomData.finds _ [4, 2, 3] (by decide +kernel) (by decide) (by decide +kernel) (by decide) (by decide +kernel) (by decide +kernel)

theorem edge2_bec' : (DomData.setting edge2EasyData_good 8).Misses .bfsExtensionCollapse :=
  DomData.misses _ [0, 1, 2, 0] (by decide +kernel) (by decide +kernel)

/-- When an edge is added, extension and collapse from a cycle of the breadth first search loses its tour. -/
theorem edge_lost_bec : CanGetLost .bfsExtensionCollapse .edge :=
  ⟨_, _, _, _, _, _, _, _, edge2_easier, edge2_bec, edge2_bec'⟩

theorem edge2_spec : (DomData.setting edge2Data_good 8).Finds .suurballesPathExtensionCollapse 19 :=
  DomData.finds _ [3, 2, 4] (by decide +kernel) (by decide) (by decide +kernel) (by decide) (by decide +kernel) (by decide +kernel)

theorem edge2_spec' : (DomData.setting edge2EasyData_good 8).Misses .suurballesPathExtensionCollapse :=
  DomData.misses _ [0, 1, 0, 2, 4, 0] (by decide +kernel) (by decide +kernel)

/-- When an edge is added, path extension and collapse from the tour of disjoint paths loses its tour. -/
theorem edge_lost_spec : CanGetLost .suurballesPathExtensionCollapse .edge :=
  ⟨_, _, _, _, _, _, _, _, edge2_easier, edge2_spec, edge2_spec'⟩

/-- An instance, before a prize rises. -/
def prize1Data : DomData 5 where
  edges := [((0, 3), 2), ((0, 4), 3), ((1, 2), 4), ((1, 3), 6), ((1, 4), 2), ((2, 3), 2), ((2, 4), 4), ((3, 4), 5)]
  prizes := [3, 0, 0, 3, 1]
  table := [(5, 0, [5]), (3, 2, [5, 3]), (8, 2, [5, 3, 8]), (4, 3, [5, 4]), (9, 3, [5, 4, 9]), (0, 4, [5, 3, 8, 0]), (2, 4, [5, 3, 8, 2]), (7, 4, [5, 3,
    8, 2, 7]), (1, 5, [5, 4, 9, 1]), (6, 5, [5, 4, 9, 1, 6])]

theorem prize1Data_good : prize1Data.Good := by
  constructor <;> decide +kernel

def prize1EasyData : DomData 5 := { prize1Data with prizes := [3, 0, 2, 3, 1] }

theorem prize1EasyData_good : prize1EasyData.Good := by
  constructor <;> decide +kernel

theorem prize1_easier : (DomData.setting prize1Data_good 2).Easier (DomData.setting prize1EasyData_good 2) .prize :=
  DomData.easier_prize _ _ _ (by decide +kernel)

theorem prize1_bec : (DomData.setting prize1Data_good 2).Finds .bfsExtensionCollapse 10 :=
  DomData.finds _ [3, 4] (by decide +kernel) (by decide) (by decide +kernel) (by decide) (by decide +kernel) (by decide +kernel)

theorem prize1_bec' : (DomData.setting prize1EasyData_good 2).Finds .bfsExtensionCollapse 11 :=
  DomData.finds _ [3, 2, 4] (by decide +kernel) (by decide) (by decide +kernel) (by decide) (by decide +kernel) (by decide +kernel)

/-- When a prize rises, extension and collapse from a cycle of the breadth first search finds a dearer tour. -/
theorem prize_dearer_bec : CanGetDearer .bfsExtensionCollapse .prize :=
  ⟨_, _, _, _, _, _, _, _, _, prize1_easier, prize1_bec, prize1_bec', by decide⟩

theorem prize1_sec : (DomData.setting prize1Data_good 2).Finds .suurballesExtensionCollapse 10 :=
  DomData.finds _ [4, 3] (by decide +kernel) (by decide) (by decide +kernel) (by decide) (by decide +kernel) (by decide +kernel)

theorem prize1_sec' : (DomData.setting prize1EasyData_good 2).Finds .suurballesExtensionCollapse 11 :=
  DomData.finds _ [4, 2, 3] (by decide +kernel) (by decide) (by decide +kernel) (by decide) (by decide +kernel) (by decide +kernel)

/-- When a prize rises, extension and collapse from the tour of disjoint paths finds a dearer tour. -/
theorem prize_dearer_sec : CanGetDearer .suurballesExtensionCollapse .prize :=
  ⟨_, _, _, _, _, _, _, _, _, prize1_easier, prize1_sec, prize1_sec', by decide⟩

/-- An instance, before a prize rises. -/
def prize2Data : DomData 5 where
  edges := [((0, 1), 4), ((0, 2), 7), ((0, 3), 1), ((0, 4), 6), ((1, 2), 3), ((1, 3), 2), ((2, 3), 5), ((2, 4), 3), ((3, 4), 5)]
  prizes := [2, 2, 1, 2, 2]
  table := [(5, 0, [5]), (3, 1, [5, 3]), (8, 1, [5, 3, 8]), (0, 2, [5, 3, 8, 0]), (1, 3, [5, 3, 8, 1]), (6, 3, [5, 3, 8, 1, 6]), (4, 6, [5, 4]), (2, 6,
    [5, 3, 8, 2]), (9, 6, [5, 4, 9]), (7, 6, [5, 3, 8, 2, 7])]

theorem prize2Data_good : prize2Data.Good := by
  constructor <;> decide +kernel

def prize2EasyData : DomData 5 := { prize2Data with prizes := [2, 2, 1, 4, 2] }

theorem prize2EasyData_good : prize2EasyData.Good := by
  constructor <;> decide +kernel

theorem prize2_easier : (DomData.setting prize2Data_good 9).Easier (DomData.setting prize2EasyData_good 9) .prize :=
  DomData.easier_prize _ _ _ (by decide +kernel)

theorem prize2_bec : (DomData.setting prize2Data_good 9).Finds .bfsExtensionCollapse 16 :=
  DomData.finds _ [1, 2, 4, 3] (by decide +kernel) (by decide) (by decide +kernel) (by decide) (by decide +kernel) (by decide +kernel)

theorem prize2_bec' : (DomData.setting prize2EasyData_good 9).Misses .bfsExtensionCollapse :=
  DomData.misses _ [0, 1, 2, 0] (by decide +kernel) (by decide +kernel)

/-- When a prize rises, extension and collapse from a cycle of the breadth first search loses its tour. -/
theorem prize_lost_bec : CanGetLost .bfsExtensionCollapse .prize :=
  ⟨_, _, _, _, _, _, _, _, prize2_easier, prize2_bec, prize2_bec'⟩

theorem prize2_spec : (DomData.setting prize2Data_good 9).Finds .suurballesPathExtensionCollapse 15 :=
  DomData.finds _ [3, 1, 2, 4] (by decide +kernel) (by decide) (by decide +kernel) (by decide) (by decide +kernel) (by decide +kernel)

theorem prize2_spec' : (DomData.setting prize2EasyData_good 9).Misses .suurballesPathExtensionCollapse :=
  DomData.misses _ [0, 1, 0, 3, 0] (by decide +kernel) (by decide +kernel)

/-- When a prize rises, path extension and collapse from the tour of disjoint paths loses its tour. -/
theorem prize_lost_spec : CanGetLost .suurballesPathExtensionCollapse .prize :=
  ⟨_, _, _, _, _, _, _, _, prize2_easier, prize2_spec, prize2_spec'⟩

/-- An instance, before a cost falls. -/
def cost2Data : DomData 6 where
  edges := [((0, 2), 5), ((0, 3), 2), ((0, 5), 7), ((1, 2), 3), ((1, 3), 3), ((1, 4), 2), ((1, 5), 5), ((2, 3), 2), ((2, 5), 4), ((3, 5), 8), ((4, 5),
    7)]
  prizes := [2, 2, 2, 2, 3, 3]
  table := [(6, 0, [6]), (3, 2, [6, 3]), (9, 2, [6, 3, 9]), (0, 4, [6, 3, 9, 0]), (2, 4, [6, 3, 9, 2]), (8, 4, [6, 3, 9, 2, 8]), (1, 5, [6, 3, 9, 1]),
    (7, 5, [6, 3, 9, 1, 7]), (5, 7, [6, 5]), (4, 7, [6, 3, 9, 1, 7, 4]), (11, 7, [6, 5, 11]), (10, 7, [6, 3, 9, 1, 7, 4, 10])]

theorem cost2Data_good : cost2Data.Good := by
  constructor <;> decide +kernel

def cost2EasyData : DomData 6 where
  edges := [((0, 2), 5), ((0, 3), 2), ((0, 5), 7), ((1, 2), 3), ((1, 3), 3), ((1, 4), 2), ((1, 5), 5), ((2, 3), 2), ((2, 5), 1), ((3, 5), 8), ((4, 5),
    7)]
  prizes := [2, 2, 2, 2, 3, 3]
  table := [(6, 0, [6]), (3, 2, [6, 3]), (9, 2, [6, 3, 9]), (0, 4, [6, 3, 9, 0]), (2, 4, [6, 3, 9, 2]), (8, 4, [6, 3, 9, 2, 8]), (1, 5, [6, 3, 9, 1]),
    (5, 5, [6, 3, 9, 2, 8, 5]), (7, 5, [6, 3, 9, 1, 7]), (11, 5, [6, 3, 9, 2, 8, 5, 11]), (4, 7, [6, 3, 9, 1, 7, 4]), (10, 7, [6, 3, 9, 1, 7, 4,
    10])]

theorem cost2EasyData_good : cost2EasyData.Good := by
  constructor <;> decide +kernel

theorem cost2_easier : (DomData.setting cost2Data_good 13).Easier (DomData.setting cost2EasyData_good 13) .cost :=
  DomData.easier_cost _ _ _ rfl rfl (by decide +kernel)

theorem cost2_bec : (DomData.setting cost2Data_good 13).Finds .bfsExtensionCollapse 23 :=
  DomData.finds _ [5, 4, 1, 2, 3] (by decide +kernel) (by decide) (by decide +kernel) (by decide) (by decide +kernel) (by decide +kernel)

theorem cost2_bec' : (DomData.setting cost2EasyData_good 13).Misses .bfsExtensionCollapse :=
  DomData.misses _ [0, 5, 2, 3, 0] (by decide +kernel) (by decide +kernel)

/-- When a cost falls, extension and collapse from a cycle of the breadth first search loses its tour. -/
theorem cost_lost_bec : CanGetLost .bfsExtensionCollapse .cost :=
  ⟨_, _, _, _, _, _, _, _, cost2_easier, cost2_bec, cost2_bec'⟩

theorem cost2_bpec : (DomData.setting cost2Data_good 13).Finds .bfsPathExtensionCollapse 23 :=
  DomData.finds _ [5, 4, 1, 2, 3] (by decide +kernel) (by decide) (by decide +kernel) (by decide) (by decide +kernel) (by decide +kernel)

theorem cost2_bpec' : (DomData.setting cost2EasyData_good 13).Misses .bfsPathExtensionCollapse :=
  DomData.misses _ [] (by decide +kernel) (by decide +kernel)

/-- When a cost falls, path extension and collapse from a cycle of the breadth first search loses its tour. -/
theorem cost_lost_bpec : CanGetLost .bfsPathExtensionCollapse .cost :=
  ⟨_, _, _, _, _, _, _, _, cost2_easier, cost2_bpec, cost2_bpec'⟩

/-- An instance, before an edge is added. -/
def edge3Data : DomData 5 where
  edges := [((0, 2), 4), ((0, 4), 1), ((1, 3), 5), ((1, 4), 6), ((2, 3), 8), ((3, 4), 3)]
  prizes := [2, 3, 3, 1, 0]
  table := [(5, 0, [5]), (4, 1, [5, 4]), (9, 1, [5, 4, 9]), (0, 2, [5, 4, 9, 0]), (2, 4, [5, 2]), (3, 4, [5, 4, 9, 3]), (7, 4, [5, 2, 7]), (8, 4, [5, 4,
    9, 3, 8]), (1, 7, [5, 4, 9, 1]), (6, 7, [5, 4, 9, 1, 6])]

theorem edge3Data_good : edge3Data.Good := by
  constructor <;> decide +kernel

def edge3EasyData : DomData 5 where
  edges := [((0, 2), 4), ((0, 4), 1), ((1, 3), 5), ((1, 4), 6), ((2, 3), 8), ((3, 4), 3), ((0, 3), 4)]
  prizes := [2, 3, 3, 1, 0]
  table := [(5, 0, [5]), (4, 1, [5, 4]), (9, 1, [5, 4, 9]), (0, 2, [5, 4, 9, 0]), (2, 4, [5, 2]), (3, 4, [5, 3]), (7, 4, [5, 2, 7]), (8, 4, [5, 3, 8]),
    (1, 7, [5, 4, 9, 1]), (6, 7, [5, 4, 9, 1, 6])]

theorem edge3EasyData_good : edge3EasyData.Good := by
  constructor <;> decide +kernel

theorem edge3_easier : (DomData.setting edge3Data_good 7).Easier (DomData.setting edge3EasyData_good 7) .edge :=
  DomData.easier_edge _ _ _ (0, 3) rfl rfl (by decide +kernel)

theorem edge3_bpec : (DomData.setting edge3Data_good 7).Finds .bfsPathExtensionCollapse 24 :=
  DomData.finds _ [4, 1, 3, 2] (by decide +kernel) (by decide) (by decide +kernel) (by decide) (by decide +kernel) (by decide +kernel)

theorem edge3_bpec' : (DomData.setting edge3EasyData_good 7).Misses .bfsPathExtensionCollapse :=
  DomData.misses _ [] (by decide +kernel) (by decide +kernel)

/-- When an edge is added, path extension and collapse from a cycle of the breadth first search loses its tour. -/
theorem edge_lost_bpec : CanGetLost .bfsPathExtensionCollapse .edge :=
  ⟨_, _, _, _, _, _, _, _, edge3_easier, edge3_bpec, edge3_bpec'⟩

/-- An instance, before a cost falls. -/
def cost3Data : DomData 5 where
  edges := [((0, 1), 2), ((0, 2), 6), ((0, 4), 3), ((1, 2), 7), ((1, 3), 2), ((1, 4), 2), ((2, 3), 5), ((3, 4), 2)]
  prizes := [2, 0, 0, 1, 3]
  table := [(5, 0, [5]), (1, 2, [5, 1]), (6, 2, [5, 1, 6]), (4, 3, [5, 4]), (9, 3, [5, 4, 9]), (0, 4, [5, 1, 6, 0]), (3, 4, [5, 1, 6, 3]), (8, 4, [5, 1,
    6, 3, 8]), (2, 6, [5, 2]), (7, 6, [5, 2, 7])]

theorem cost3Data_good : cost3Data.Good := by
  constructor <;> decide +kernel

def cost3EasyData : DomData 5 where
  edges := [((0, 1), 2), ((0, 2), 6), ((0, 4), 3), ((1, 2), 7), ((1, 3), 2), ((1, 4), 2), ((2, 3), 3), ((3, 4), 2)]
  prizes := [2, 0, 0, 1, 3]
  table := [(5, 0, [5]), (1, 2, [5, 1]), (6, 2, [5, 1, 6]), (4, 3, [5, 4]), (9, 3, [5, 4, 9]), (0, 4, [5, 1, 6, 0]), (3, 4, [5, 1, 6, 3]), (8, 4, [5, 1,
    6, 3, 8]), (2, 6, [5, 2]), (7, 6, [5, 2, 7])]

theorem cost3EasyData_good : cost3EasyData.Good := by
  constructor <;> decide +kernel

theorem cost3_easier : (DomData.setting cost3Data_good 0).Easier (DomData.setting cost3EasyData_good 0) .cost :=
  DomData.easier_cost _ _ _ rfl rfl (by decide +kernel)

theorem cost3_bpec : (DomData.setting cost3Data_good 0).Finds .bfsPathExtensionCollapse 7 :=
  DomData.finds _ [1, 4] (by decide +kernel) (by decide) (by decide +kernel) (by decide) (by decide +kernel) (by decide +kernel)

theorem cost3_bpec' : (DomData.setting cost3EasyData_good 0).Finds .bfsPathExtensionCollapse 9 :=
  DomData.finds _ [1, 3, 4] (by decide +kernel) (by decide) (by decide +kernel) (by decide) (by decide +kernel) (by decide +kernel)

/-- When a cost falls, path extension and collapse from a cycle of the breadth first search finds a dearer tour. -/
theorem cost_dearer_bpec : CanGetDearer .bfsPathExtensionCollapse .cost :=
  ⟨_, _, _, _, _, _, _, _, _, cost3_easier, cost3_bpec, cost3_bpec', by decide⟩

/-- An instance, before an edge is added. -/
def edge4Data : DomData 5 where
  edges := [((0, 1), 7), ((0, 4), 8), ((1, 2), 2), ((1, 4), 2), ((2, 4), 2), ((3, 4), 4)]
  prizes := [3, 3, 0, 0, 1]
  table := [(5, 0, [5]), (1, 7, [5, 1]), (6, 7, [5, 1, 6]), (4, 8, [5, 4]), (9, 8, [5, 4, 9]), (2, 9, [5, 1, 6, 2]), (7, 9, [5, 1, 6, 2, 7]), (3, 12,
    [5, 4, 9, 3]), (8, 12, [5, 4, 9, 3, 8]), (0, 14, [5, 1, 6, 0])]

theorem edge4Data_good : edge4Data.Good := by
  constructor <;> decide +kernel

def edge4EasyData : DomData 5 where
  edges := [((0, 1), 7), ((0, 4), 8), ((1, 2), 2), ((1, 4), 2), ((2, 4), 2), ((3, 4), 4), ((0, 2), 8)]
  prizes := [3, 3, 0, 0, 1]
  table := [(5, 0, [5]), (1, 7, [5, 1]), (6, 7, [5, 1, 6]), (4, 8, [5, 4]), (2, 8, [5, 2]), (9, 8, [5, 4, 9]), (7, 8, [5, 2, 7]), (3, 12, [5, 4, 9, 3]),
    (8, 12, [5, 4, 9, 3, 8]), (0, 14, [5, 1, 6, 0])]

theorem edge4EasyData_good : edge4EasyData.Good := by
  constructor <;> decide +kernel

theorem edge4_easier : (DomData.setting edge4Data_good 2).Easier (DomData.setting edge4EasyData_good 2) .edge :=
  DomData.easier_edge _ _ _ (0, 2) rfl rfl (by decide +kernel)

theorem edge4_bec : (DomData.setting edge4Data_good 2).Finds .bfsExtensionCollapse 17 :=
  DomData.finds _ [1, 4] (by decide +kernel) (by decide) (by decide +kernel) (by decide) (by decide +kernel) (by decide +kernel)

theorem edge4_bec' : (DomData.setting edge4EasyData_good 2).Finds .bfsExtensionCollapse 19 :=
  DomData.finds _ [1, 4, 2] (by decide +kernel) (by decide) (by decide +kernel) (by decide) (by decide +kernel) (by decide +kernel)

/-- When an edge is added, extension and collapse from a cycle of the breadth first search finds a dearer tour. -/
theorem edge_dearer_bec : CanGetDearer .bfsExtensionCollapse .edge :=
  ⟨_, _, _, _, _, _, _, _, _, edge4_easier, edge4_bec, edge4_bec', by decide⟩

/-- An instance, before an edge is added. -/
def edge5Data : DomData 5 where
  edges := [((0, 1), 1), ((0, 2), 6), ((0, 3), 7), ((1, 2), 4), ((1, 3), 6), ((1, 4), 4), ((2, 3), 2), ((2, 4), 4), ((3, 4), 5)]
  prizes := [1, 3, 0, 2, 0]
  table := [(5, 0, [5]), (1, 1, [5, 1]), (6, 1, [5, 1, 6]), (0, 2, [5, 1, 6, 0]), (2, 5, [5, 1, 6, 2]), (4, 5, [5, 1, 6, 4]), (7, 5, [5, 1, 6, 2, 7]),
    (9, 5, [5, 1, 6, 4, 9]), (3, 7, [5, 3]), (8, 7, [5, 3, 8])]

theorem edge5Data_good : edge5Data.Good := by
  constructor <;> decide +kernel

def edge5EasyData : DomData 5 where
  edges := [((0, 1), 1), ((0, 2), 6), ((0, 3), 7), ((1, 2), 4), ((1, 3), 6), ((1, 4), 4), ((2, 3), 2), ((2, 4), 4), ((3, 4), 5), ((0, 4), 5)]
  prizes := [1, 3, 0, 2, 0]
  table := [(5, 0, [5]), (1, 1, [5, 1]), (6, 1, [5, 1, 6]), (0, 2, [5, 1, 6, 0]), (4, 5, [5, 4]), (2, 5, [5, 1, 6, 2]), (9, 5, [5, 4, 9]), (7, 5, [5, 1,
    6, 2, 7]), (3, 7, [5, 3]), (8, 7, [5, 3, 8])]

theorem edge5EasyData_good : edge5EasyData.Good := by
  constructor <;> decide +kernel

theorem edge5_easier : (DomData.setting edge5Data_good 4).Easier (DomData.setting edge5EasyData_good 4) .edge :=
  DomData.easier_edge _ _ _ (0, 4) rfl rfl (by decide +kernel)

theorem edge5_sec : (DomData.setting edge5Data_good 4).Finds .suurballesExtensionCollapse 14 :=
  DomData.finds _ [3, 2, 1] (by decide +kernel) (by decide) (by decide +kernel) (by decide) (by decide +kernel) (by decide +kernel)

theorem edge5_sec' : (DomData.setting edge5EasyData_good 4).Finds .suurballesExtensionCollapse 17 :=
  DomData.finds _ [3, 4, 1] (by decide +kernel) (by decide) (by decide +kernel) (by decide) (by decide +kernel) (by decide +kernel)

/-- When an edge is added, extension and collapse from the tour of disjoint paths finds a dearer tour. -/
theorem edge_dearer_sec : CanGetDearer .suurballesExtensionCollapse .edge :=
  ⟨_, _, _, _, _, _, _, _, _, edge5_easier, edge5_sec, edge5_sec', by decide⟩

/-- An instance, before the quota falls. -/
def quota2Data : DomData 5 where
  edges := [((0, 1), 8), ((0, 2), 6), ((0, 3), 4), ((0, 4), 5), ((1, 2), 4), ((1, 3), 2), ((1, 4), 5), ((2, 3), 4), ((2, 4), 1)]
  prizes := [1, 2, 2, 3, 0]
  table := [(5, 0, [5]), (3, 4, [5, 3]), (8, 4, [5, 3, 8]), (4, 5, [5, 4]), (9, 5, [5, 4, 9]), (2, 6, [5, 2]), (1, 6, [5, 3, 8, 1]), (7, 6, [5, 2, 7]),
    (6, 6, [5, 3, 8, 1, 6]), (0, 8, [5, 3, 8, 0])]

theorem quota2Data_good : quota2Data.Good := by
  constructor <;> decide +kernel

theorem quota2_easier : (DomData.setting quota2Data_good 5).Easier (DomData.setting quota2Data_good (3)) .quota :=
  DomData.easier_quota _ (by decide)

theorem quota2_bec : (DomData.setting quota2Data_good 5).Finds .bfsExtensionCollapse 14 :=
  DomData.finds _ [1, 3] (by decide +kernel) (by decide) (by decide +kernel) (by decide) (by decide +kernel) (by decide +kernel)

theorem quota2_bec' : (DomData.setting quota2Data_good 3).Finds .bfsExtensionCollapse 20 :=
  DomData.finds _ [1, 3, 2] (by decide +kernel) (by decide) (by decide +kernel) (by decide) (by decide +kernel) (by decide +kernel)

/-- When the quota falls, extension and collapse from a cycle of the breadth first search finds a dearer tour. -/
theorem quota_dearer_bec : CanGetDearer .bfsExtensionCollapse .quota :=
  ⟨_, _, _, _, _, _, _, _, _, quota2_easier, quota2_bec, quota2_bec', by decide⟩

/-- An instance, before a prize rises. -/
def prize3Data : DomData 5 where
  edges := [((0, 1), 5), ((0, 2), 8), ((0, 3), 1), ((1, 2), 3), ((1, 3), 8), ((1, 4), 7), ((2, 3), 8), ((2, 4), 5), ((3, 4), 1)]
  prizes := [1, 0, 2, 1, 1]
  table := [(5, 0, [5]), (3, 1, [5, 3]), (8, 1, [5, 3, 8]), (0, 2, [5, 3, 8, 0]), (4, 2, [5, 3, 8, 4]), (9, 2, [5, 3, 8, 4, 9]), (1, 5, [5, 1]), (6, 5,
    [5, 1, 6]), (2, 7, [5, 3, 8, 4, 9, 2]), (7, 7, [5, 3, 8, 4, 9, 2, 7])]

theorem prize3Data_good : prize3Data.Good := by
  constructor <;> decide +kernel

def prize3EasyData : DomData 5 := { prize3Data with prizes := [1, 3, 2, 1, 1] }

theorem prize3EasyData_good : prize3EasyData.Good := by
  constructor <;> decide +kernel

theorem prize3_easier : (DomData.setting prize3Data_good 2).Easier (DomData.setting prize3EasyData_good 2) .prize :=
  DomData.easier_prize _ _ _ (by decide +kernel)

theorem prize3_bpec : (DomData.setting prize3Data_good 2).Finds .bfsPathExtensionCollapse 14 :=
  DomData.finds _ [1, 3] (by decide +kernel) (by decide) (by decide +kernel) (by decide) (by decide +kernel) (by decide +kernel)

theorem prize3_bpec' : (DomData.setting prize3EasyData_good 2).Finds .bfsPathExtensionCollapse 15 :=
  DomData.finds _ [1, 2, 4, 3] (by decide +kernel) (by decide) (by decide +kernel) (by decide) (by decide +kernel) (by decide +kernel)

/-- When a prize rises, path extension and collapse from a cycle of the breadth first search finds a dearer tour. -/
theorem prize_dearer_bpec : CanGetDearer .bfsPathExtensionCollapse .prize :=
  ⟨_, _, _, _, _, _, _, _, _, prize3_easier, prize3_bpec, prize3_bpec', by decide⟩

/-- An instance, before the quota falls. -/
def quota3Data : DomData 5 where
  edges := [((0, 1), 6), ((0, 2), 8), ((0, 3), 2), ((0, 4), 1), ((1, 2), 3), ((1, 4), 6), ((2, 3), 6), ((2, 4), 3), ((3, 4), 3)]
  prizes := [3, 3, 2, 3, 2]
  table := [(5, 0, [5]), (4, 1, [5, 4]), (9, 1, [5, 4, 9]), (3, 2, [5, 3]), (0, 2, [5, 4, 9, 0]), (8, 2, [5, 3, 8]), (2, 4, [5, 4, 9, 2]), (7, 4, [5, 4,
    9, 2, 7]), (1, 6, [5, 1]), (6, 6, [5, 1, 6])]

theorem quota3Data_good : quota3Data.Good := by
  constructor <;> decide +kernel

theorem quota3_easier : (DomData.setting quota3Data_good 12).Easier (DomData.setting quota3Data_good (10)) .quota :=
  DomData.easier_quota _ (by decide)

theorem quota3_spec : (DomData.setting quota3Data_good 12).Finds .suurballesPathExtensionCollapse 18 :=
  DomData.finds _ [3, 2, 1, 4] (by decide +kernel) (by decide) (by decide +kernel) (by decide) (by decide +kernel) (by decide +kernel)

theorem quota3_spec' : (DomData.setting quota3Data_good 10).Misses .suurballesPathExtensionCollapse :=
  DomData.misses _ [0, 3, 0, 4, 0] (by decide +kernel) (by decide +kernel)

/-- When the quota falls, path extension and collapse from the tour of disjoint paths loses its tour. -/
theorem quota_lost_spec : CanGetLost .suurballesPathExtensionCollapse .quota :=
  ⟨_, _, _, _, _, _, _, _, quota3_easier, quota3_spec, quota3_spec'⟩

/-- An instance, before a cost falls. -/
def cost4Data : DomData 5 where
  edges := [((0, 1), 1), ((0, 2), 3), ((0, 3), 8), ((0, 4), 3), ((1, 2), 7), ((1, 3), 6), ((1, 4), 2), ((2, 3), 7), ((2, 4), 2), ((3, 4), 5)]
  prizes := [1, 3, 3, 2, 0]
  table := [(5, 0, [5]), (1, 1, [5, 1]), (6, 1, [5, 1, 6]), (0, 2, [5, 1, 6, 0]), (2, 3, [5, 2]), (4, 3, [5, 4]), (7, 3, [5, 2, 7]), (9, 3, [5, 4, 9]),
    (3, 7, [5, 1, 6, 3]), (8, 7, [5, 1, 6, 3, 8])]

theorem cost4Data_good : cost4Data.Good := by
  constructor <;> decide +kernel

def cost4EasyData : DomData 5 where
  edges := [((0, 1), 1), ((0, 2), 1), ((0, 3), 8), ((0, 4), 3), ((1, 2), 7), ((1, 3), 6), ((1, 4), 2), ((2, 3), 7), ((2, 4), 2), ((3, 4), 5)]
  prizes := [1, 3, 3, 2, 0]
  table := [(5, 0, [5]), (1, 1, [5, 1]), (2, 1, [5, 2]), (6, 1, [5, 1, 6]), (7, 1, [5, 2, 7]), (0, 2, [5, 1, 6, 0]), (4, 3, [5, 4]), (9, 3, [5, 4, 9]),
    (3, 7, [5, 1, 6, 3]), (8, 7, [5, 1, 6, 3, 8])]

theorem cost4EasyData_good : cost4EasyData.Good := by
  constructor <;> decide +kernel

theorem cost4_easier : (DomData.setting cost4Data_good 8).Easier (DomData.setting cost4EasyData_good 8) .cost :=
  DomData.easier_cost _ _ _ rfl rfl (by decide +kernel)

theorem cost4_spec : (DomData.setting cost4Data_good 8).Finds .suurballesPathExtensionCollapse 17 :=
  DomData.finds _ [2, 3, 1] (by decide +kernel) (by decide) (by decide +kernel) (by decide) (by decide +kernel) (by decide +kernel)

theorem cost4_spec' : (DomData.setting cost4EasyData_good 8).Misses .suurballesPathExtensionCollapse :=
  DomData.misses _ [0, 2, 0, 1, 0] (by decide +kernel) (by decide +kernel)

/-- When a cost falls, path extension and collapse from the tour of disjoint paths loses its tour. -/
theorem cost_lost_spec : CanGetLost .suurballesPathExtensionCollapse .cost :=
  ⟨_, _, _, _, _, _, _, _, cost4_easier, cost4_spec, cost4_spec'⟩

/-- An instance, before a prize rises. -/
def prize4Data : DomData 5 where
  edges := [((0, 1), 5), ((0, 2), 8), ((0, 3), 2), ((0, 4), 1), ((1, 2), 7), ((1, 3), 8), ((1, 4), 8), ((2, 3), 7), ((3, 4), 1)]
  prizes := [1, 1, 2, 3, 3]
  table := [(5, 0, [5]), (4, 1, [5, 4]), (9, 1, [5, 4, 9]), (3, 2, [5, 3]), (0, 2, [5, 4, 9, 0]), (8, 2, [5, 3, 8]), (1, 5, [5, 1]), (6, 5, [5, 1, 6]),
    (2, 8, [5, 2]), (7, 8, [5, 2, 7])]

theorem prize4Data_good : prize4Data.Good := by
  constructor <;> decide +kernel

def prize4EasyData : DomData 5 := { prize4Data with prizes := [1, 3, 2, 3, 3] }

theorem prize4EasyData_good : prize4EasyData.Good := by
  constructor <;> decide +kernel

theorem prize4_easier : (DomData.setting prize4Data_good 10).Easier (DomData.setting prize4EasyData_good 10) .prize :=
  DomData.easier_prize _ _ _ (by decide +kernel)

theorem prize4_sec : (DomData.setting prize4Data_good 10).Finds .suurballesExtensionCollapse 21 :=
  DomData.finds _ [1, 2, 3, 4] (by decide +kernel) (by decide) (by decide +kernel) (by decide) (by decide +kernel) (by decide +kernel)

theorem prize4_sec' : (DomData.setting prize4EasyData_good 10).Misses .suurballesExtensionCollapse :=
  DomData.misses _ [0, 4, 0, 1, 3, 0] (by decide +kernel) (by decide +kernel)

/-- When a prize rises, extension and collapse from the tour of disjoint paths loses its tour. -/
theorem prize_lost_sec : CanGetLost .suurballesExtensionCollapse .prize :=
  ⟨_, _, _, _, _, _, _, _, prize4_easier, prize4_sec, prize4_sec'⟩

/-- An instance, before a cost falls. -/
def cost5Data : DomData 5 where
  edges := [((0, 1), 5), ((0, 2), 2), ((0, 3), 5), ((0, 4), 6), ((1, 3), 7), ((1, 4), 4), ((2, 3), 2), ((2, 4), 4)]
  prizes := [0, 3, 0, 0, 3]
  table := [(5, 0, [5]), (2, 2, [5, 2]), (7, 2, [5, 2, 7]), (0, 4, [5, 2, 7, 0]), (3, 4, [5, 2, 7, 3]), (8, 4, [5, 2, 7, 3, 8]), (1, 5, [5, 1]), (6, 5,
    [5, 1, 6]), (4, 6, [5, 4]), (9, 6, [5, 4, 9])]

theorem cost5Data_good : cost5Data.Good := by
  constructor <;> decide +kernel

def cost5EasyData : DomData 5 where
  edges := [((0, 1), 5), ((0, 2), 2), ((0, 3), 5), ((0, 4), 6), ((1, 3), 7), ((1, 4), 4), ((2, 3), 1), ((2, 4), 4)]
  prizes := [0, 3, 0, 0, 3]
  table := [(5, 0, [5]), (2, 2, [5, 2]), (7, 2, [5, 2, 7]), (3, 3, [5, 2, 7, 3]), (8, 3, [5, 2, 7, 3, 8]), (0, 4, [5, 2, 7, 0]), (1, 5, [5, 1]), (6, 5,
    [5, 1, 6]), (4, 6, [5, 4]), (9, 6, [5, 4, 9])]

theorem cost5EasyData_good : cost5EasyData.Good := by
  constructor <;> decide +kernel

theorem cost5_easier : (DomData.setting cost5Data_good 5).Easier (DomData.setting cost5EasyData_good 5) .cost :=
  DomData.easier_cost _ _ _ rfl rfl (by decide +kernel)

theorem cost5_sbl : (DomData.setting cost5Data_good 5).Finds .suurballesHeuristic 15 :=
  DomData.finds _ [4, 1] (by decide +kernel) (by decide) (by decide +kernel) (by decide) (by decide +kernel) (by decide +kernel)

theorem cost5_sbl' : (DomData.setting cost5EasyData_good 5).Misses .suurballesHeuristic :=
  DomData.misses _ [] (by decide +kernel) (by decide +kernel)

/-- When a cost falls, Suurballe's heuristic loses its tour. -/
theorem cost_lost_sbl : CanGetLost .suurballesHeuristic .cost :=
  ⟨_, _, _, _, _, _, _, _, cost5_easier, cost5_sbl, cost5_sbl'⟩

/-- An instance, before a cost falls. -/
def cost6Data : DomData 5 where
  edges := [((0, 1), 3), ((0, 2), 6), ((0, 4), 5), ((1, 2), 3), ((1, 3), 5), ((1, 4), 4), ((2, 3), 8), ((2, 4), 5), ((3, 4), 8)]
  prizes := [1, 1, 3, 1, 3]
  table := [(5, 0, [5]), (1, 3, [5, 1]), (6, 3, [5, 1, 6]), (4, 5, [5, 4]), (9, 5, [5, 4, 9]), (2, 6, [5, 2]), (0, 6, [5, 1, 6, 0]), (7, 6, [5, 2, 7]),
    (3, 8, [5, 1, 6, 3]), (8, 8, [5, 1, 6, 3, 8])]

theorem cost6Data_good : cost6Data.Good := by
  constructor <;> decide +kernel

def cost6EasyData : DomData 5 where
  edges := [((0, 1), 3), ((0, 2), 6), ((0, 4), 5), ((1, 2), 3), ((1, 3), 2), ((1, 4), 4), ((2, 3), 8), ((2, 4), 5), ((3, 4), 8)]
  prizes := [1, 1, 3, 1, 3]
  table := [(5, 0, [5]), (1, 3, [5, 1]), (6, 3, [5, 1, 6]), (4, 5, [5, 4]), (3, 5, [5, 1, 6, 3]), (9, 5, [5, 4, 9]), (8, 5, [5, 1, 6, 3, 8]), (2, 6, [5,
    2]), (0, 6, [5, 1, 6, 0]), (7, 6, [5, 2, 7])]

theorem cost6EasyData_good : cost6EasyData.Good := by
  constructor <;> decide +kernel

theorem cost6_easier : (DomData.setting cost6Data_good 8).Easier (DomData.setting cost6EasyData_good 8) .cost :=
  DomData.easier_cost _ _ _ rfl rfl (by decide +kernel)

theorem cost6_sec : (DomData.setting cost6Data_good 8).Finds .suurballesExtensionCollapse 16 :=
  DomData.finds _ [1, 2, 4] (by decide +kernel) (by decide) (by decide +kernel) (by decide) (by decide +kernel) (by decide +kernel)

theorem cost6_sec' : (DomData.setting cost6EasyData_good 8).Misses .suurballesExtensionCollapse :=
  DomData.misses _ [0, 4, 3, 1, 0] (by decide +kernel) (by decide +kernel)

/-- When a cost falls, extension and collapse from the tour of disjoint paths loses its tour. -/
theorem cost_lost_sec : CanGetLost .suurballesExtensionCollapse .cost :=
  ⟨_, _, _, _, _, _, _, _, cost6_easier, cost6_sec, cost6_sec'⟩

/-- An instance, before an edge is added. -/
def edge6Data : DomData 5 where
  edges := [((0, 1), 5), ((0, 3), 4), ((0, 4), 3), ((1, 2), 5), ((1, 3), 8), ((1, 4), 2), ((2, 3), 6), ((2, 4), 7)]
  prizes := [1, 3, 3, 3, 0]
  table := [(5, 0, [5]), (4, 3, [5, 4]), (9, 3, [5, 4, 9]), (3, 4, [5, 3]), (8, 4, [5, 3, 8]), (1, 5, [5, 1]), (6, 5, [5, 1, 6]), (0, 6, [5, 4, 9, 0]),
    (2, 10, [5, 4, 9, 2]), (7, 10, [5, 4, 9, 2, 7])]

theorem edge6Data_good : edge6Data.Good := by
  constructor <;> decide +kernel

def edge6EasyData : DomData 5 where
  edges := [((0, 1), 5), ((0, 3), 4), ((0, 4), 3), ((1, 2), 5), ((1, 3), 8), ((1, 4), 2), ((2, 3), 6), ((2, 4), 7), ((3, 4), 6)]
  prizes := [1, 3, 3, 3, 0]
  table := [(5, 0, [5]), (4, 3, [5, 4]), (9, 3, [5, 4, 9]), (3, 4, [5, 3]), (8, 4, [5, 3, 8]), (1, 5, [5, 1]), (6, 5, [5, 1, 6]), (0, 6, [5, 4, 9, 0]),
    (2, 10, [5, 4, 9, 2]), (7, 10, [5, 4, 9, 2, 7])]

theorem edge6EasyData_good : edge6EasyData.Good := by
  constructor <;> decide +kernel

theorem edge6_easier : (DomData.setting edge6Data_good 5).Easier (DomData.setting edge6EasyData_good 5) .edge :=
  DomData.easier_edge _ _ _ (3, 4) rfl rfl (by decide +kernel)

theorem edge6_sbl : (DomData.setting edge6Data_good 5).Finds .suurballesHeuristic 17 :=
  DomData.finds _ [1, 3] (by decide +kernel) (by decide) (by decide +kernel) (by decide) (by decide +kernel) (by decide +kernel)

theorem edge6_sbl' : (DomData.setting edge6EasyData_good 5).Finds .suurballesHeuristic 20 :=
  DomData.finds _ [3, 2, 4] (by decide +kernel) (by decide) (by decide +kernel) (by decide) (by decide +kernel) (by decide +kernel)

/-- When an edge is added, Suurballe's heuristic finds a dearer tour. -/
theorem edge_dearer_sbl : CanGetDearer .suurballesHeuristic .edge :=
  ⟨_, _, _, _, _, _, _, _, _, edge6_easier, edge6_sbl, edge6_sbl', by decide⟩

/-- An instance, before a prize rises. -/
def prize5Data : DomData 5 where
  edges := [((0, 1), 6), ((0, 2), 8), ((0, 3), 7), ((0, 4), 5), ((1, 2), 2), ((1, 3), 3), ((1, 4), 8), ((2, 3), 7), ((2, 4), 2), ((3, 4), 6)]
  prizes := [3, 3, 2, 3, 3]
  table := [(5, 0, [5]), (4, 5, [5, 4]), (9, 5, [5, 4, 9]), (1, 6, [5, 1]), (6, 6, [5, 1, 6]), (3, 7, [5, 3]), (2, 7, [5, 4, 9, 2]), (8, 7, [5, 3, 8]),
    (7, 7, [5, 4, 9, 2, 7]), (0, 10, [5, 4, 9, 0])]

theorem prize5Data_good : prize5Data.Good := by
  constructor <;> decide +kernel

def prize5EasyData : DomData 5 := { prize5Data with prizes := [3, 5, 2, 3, 3] }

theorem prize5EasyData_good : prize5EasyData.Good := by
  constructor <;> decide +kernel

theorem prize5_easier : (DomData.setting prize5Data_good 14).Easier (DomData.setting prize5EasyData_good 14) .prize :=
  DomData.easier_prize _ _ _ (by decide +kernel)

theorem prize5_spec : (DomData.setting prize5Data_good 14).Finds .suurballesPathExtensionCollapse 19 :=
  DomData.finds _ [3, 1, 2, 4] (by decide +kernel) (by decide) (by decide +kernel) (by decide) (by decide +kernel) (by decide +kernel)

theorem prize5_spec' : (DomData.setting prize5EasyData_good 14).Finds .suurballesPathExtensionCollapse 20 :=
  DomData.finds _ [1, 3, 4] (by decide +kernel) (by decide) (by decide +kernel) (by decide) (by decide +kernel) (by decide +kernel)

/-- When a prize rises, path extension and collapse from the tour of disjoint paths finds a dearer tour. -/
theorem prize_dearer_spec : CanGetDearer .suurballesPathExtensionCollapse .prize :=
  ⟨_, _, _, _, _, _, _, _, _, prize5_easier, prize5_spec, prize5_spec', by decide⟩

/-- An instance, before the quota falls. -/
def quota4Data : DomData 6 where
  edges := [((0, 1), 2), ((0, 2), 6), ((0, 3), 2), ((0, 4), 6), ((0, 5), 4), ((1, 2), 7), ((1, 3), 3), ((1, 4), 8), ((1, 5), 3), ((2, 3), 7), ((2, 4),
    8), ((2, 5), 1), ((3, 4), 5)]
  prizes := [2, 2, 1, 2, 3, 2]
  table := [(6, 0, [6]), (1, 2, [6, 1]), (3, 2, [6, 3]), (7, 2, [6, 1, 7]), (9, 2, [6, 3, 9]), (5, 4, [6, 5]), (0, 4, [6, 1, 7, 0]), (11, 4, [6, 5,
    11]), (2, 5, [6, 5, 11, 2]), (8, 5, [6, 5, 11, 2, 8]), (4, 6, [6, 4]), (10, 6, [6, 4, 10])]

theorem quota4Data_good : quota4Data.Good := by
  constructor <;> decide +kernel

theorem quota4_easier : (DomData.setting quota4Data_good 12).Easier (DomData.setting quota4Data_good (9)) .quota :=
  DomData.easier_quota _ (by decide)

theorem quota4_sec : (DomData.setting quota4Data_good 12).Finds .suurballesExtensionCollapse 21 :=
  DomData.finds _ [3, 4, 2, 5, 1] (by decide +kernel) (by decide) (by decide +kernel) (by decide) (by decide +kernel) (by decide +kernel)

theorem quota4_sec' : (DomData.setting quota4Data_good 9).Misses .suurballesExtensionCollapse :=
  DomData.misses _ [0, 3, 0, 5, 1, 0] (by decide +kernel) (by decide +kernel)

/-- When the quota falls, extension and collapse from the tour of disjoint paths loses its tour. -/
theorem quota_lost_sec : CanGetLost .suurballesExtensionCollapse .quota :=
  ⟨_, _, _, _, _, _, _, _, quota4_easier, quota4_sec, quota4_sec'⟩

/-- An instance, before a prize rises. -/
def prize6Data : DomData 6 where
  edges := [((0, 1), 7), ((0, 2), 8), ((0, 5), 6), ((1, 2), 3), ((1, 3), 5), ((1, 4), 3), ((2, 3), 2), ((2, 4), 6), ((3, 5), 6)]
  prizes := [2, 0, 3, 3, 3, 2]
  table := [(6, 0, [6]), (5, 6, [6, 5]), (11, 6, [6, 5, 11]), (1, 7, [6, 1]), (7, 7, [6, 1, 7]), (2, 8, [6, 2]), (8, 8, [6, 2, 8]), (4, 10, [6, 1, 7,
    4]), (3, 10, [6, 2, 8, 3]), (10, 10, [6, 1, 7, 4, 10]), (9, 10, [6, 2, 8, 3, 9]), (0, 12, [6, 5, 11, 0])]

theorem prize6Data_good : prize6Data.Good := by
  constructor <;> decide +kernel

def prize6EasyData : DomData 6 := { prize6Data with prizes := [2, 0, 3, 4, 3, 2] }

theorem prize6EasyData_good : prize6EasyData.Good := by
  constructor <;> decide +kernel

theorem prize6_easier : (DomData.setting prize6Data_good 13).Easier (DomData.setting prize6EasyData_good 13) .prize :=
  DomData.easier_prize _ _ _ (by decide +kernel)

theorem prize6_bpec : (DomData.setting prize6Data_good 13).Finds .bfsPathExtensionCollapse 30 :=
  DomData.finds _ [1, 4, 2, 3, 5] (by decide +kernel) (by decide) (by decide +kernel) (by decide) (by decide +kernel) (by decide +kernel)

theorem prize6_bpec' : (DomData.setting prize6EasyData_good 13).Misses .bfsPathExtensionCollapse :=
  DomData.misses _ [] (by decide +kernel) (by decide +kernel)

/-- When a prize rises, path extension and collapse from a cycle of the breadth first search loses its tour. -/
theorem prize_lost_bpec : CanGetLost .bfsPathExtensionCollapse .prize :=
  ⟨_, _, _, _, _, _, _, _, prize6_easier, prize6_bpec, prize6_bpec'⟩

end Pctsp
