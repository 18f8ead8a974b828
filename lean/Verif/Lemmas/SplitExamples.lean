import Verif.Spec.Split
import Verif.Lemmas.Walk
import Verif.Lemmas.SuurballeExamples

/-!
# A complete graph with four vertices for the examples about split graphs
-/

namespace Pctsp

/-- The names: vertex `v < n` has the tail `v` and the head `v + n`.  A path is read off its first vertex and its tails. -/
def plainNames (n : Nat) [NeZero n] : SplitNames (Fin n) Nat where
  isTail w := decide (w < n)
  original w := Fin.ofNat n w
  path p := (p.take 1 ++ (p.drop 1).filter fun w => decide (w < n)).map (Fin.ofNat n)

theorem plainNames_ok (n : Nat) [NeZero n] : (plainNames n).Ok (fun v => v.val) (fun v => v.val + n) where
  tailTrue v := by simp [plainNames]
  headFalse v := by simp [plainNames]
  original v := by simp [plainNames]
  path r l _ _ := by
    have key : ∀ l : List (Fin n), ((expand (fun v : Fin n => v.val) (fun v => v.val + n) l).filter fun w => decide (w < n)) = l.map Fin.val := by
      intro l
      induction l with
      | nil => rfl
      | cons a l ih =>
        cases l with
        | nil => simp [expand]
        | cons b l => simp [expand, ih]
    simp only [plainNames, List.take_succ_cons, List.take_zero, List.drop_succ_cons, List.drop_zero, key]
    simp only [List.map_cons, List.singleton_append, List.map_map]
    congr 1
    · ext; simp [Nat.mod_eq_of_lt r.isLt]
    · have : (Fin.ofNat n ∘ Fin.val) = (id : Fin n → Fin n) := by funext v; simp
      rw [this, List.map_id]

/-- Four vertices.  The edges at 0 cost 10, the edge between 1 and 2 costs 1, the edges between them and 3 cost 15. -/
def fourCost (u v : Fin 4) : Int := if u = 0 ∨ v = 0 then 10 else if u = 3 ∨ v = 3 then 15 else 1

def four : NxGraph (Fin 4) where
  nodes := [0, 1, 2, 3]
  adj u := [0, 1, 2, 3].filter (· ≠ u)

def fourSplit : DiGraph Nat := .ofEdges 8 [((0, 4), 0), ((1, 5), 0), ((2, 6), 0), ((3, 7), 0), ((4, 1), 10), ((4, 2), 10), ((4, 3), 10),
  ((5, 0), 10), ((5, 2), 1), ((5, 3), 15), ((6, 0), 10), ((6, 1), 1), ((6, 3), 15), ((7, 0), 10), ((7, 1), 15), ((7, 2), 15)]

def fourDij : DijkstraOut Nat := .ofTable [(4, 0, [4]), (1, 10, [4, 1]), (2, 10, [4, 2]), (3, 10, [4, 3]), (5, 10, [4, 1, 5]), (6, 10, [4, 2, 6]),
  (7, 10, [4, 3, 7]), (0, 20, [4, 1, 5, 0])]

theorem four_wf : four.WF := ⟨by decide, by decide, by decide, by decide⟩
theorem fourSplit_wf : fourSplit.WF := DiGraph.ofEdges_wf (by decide) (by decide)
theorem fourDij_ok : IsDijkstra fourSplit 4 fourDij :=
  DijkstraOut.ofTable_ok (by decide) (by decide) (by decide) (by decide) (by decide) (by decide)

theorem four_split : SplitOf four fourCost fourSplit (fun v => v.val) (fun v => v.val + 4) where
  tailInj u v h := Fin.ext h
  headInj u v h := Fin.ext (by simpa using h)
  disj u v := by have := u.isLt; intro h; omega
  edges x y h := by
    have key : ∀ e ∈ ([(0, 4), (1, 5), (2, 6), (3, 7), (4, 1), (4, 2), (4, 3), (5, 0), (5, 2), (5, 3), (6, 0), (6, 1), (6, 3), (7, 0), (7, 1),
        (7, 2)] : List (Nat × Nat)),
        (∃ v : Fin 4, e.1 = v.val ∧ e.2 = v.val + 4) ∨ ∃ a b : Fin 4, e.1 = a.val + 4 ∧ e.2 = b.val ∧ b ∈ four.adj a := by decide
    exact key (x, y) (DiGraph.mem_ofEdges.1 h)
  inner := by decide
  outer := by decide
  innerCost := by decide
  outerCost := by decide

/-- The result of the algorithm. -/
def fourRun : STree Nat × SState Nat := match suurballe fourSplit fourDij 10 4 with
  | .ok r => r
  | _ => (⟨0, fun _ => [], fun _ => [], fun _ => 0, fun _ => 0, fun _ _ => 0, fun _ => 0⟩,
    ⟨fun _ => 0, fun _ => none, fun _ => none, fun _ => false, [], fun _ => [], fun _ => [], fun _ => none⟩)

theorem fourRun_ok : suurballe fourSplit fourDij 10 4 = .ok (fourRun.1, fourRun.2) := by
  have h : (match suurballe fourSplit fourDij 10 4 with | .ok _ => true | _ => false) = true := by decide +kernel
  rw [fourRun]
  revert h
  cases suurballe fourSplit fourDij 10 4 <;> simp

theorem four_on : SuurballeOn four fourCost fourSplit (fun v => v.val) (fun v => v.val + 4) (plainNames 4) 0 fourDij 10 fourRun.1 fourRun.2 :=
  ⟨four_wf, by decide, fourSplit_wf, four_split, plainNames_ok 4, fourDij_ok, fourRun_ok⟩

end Pctsp
