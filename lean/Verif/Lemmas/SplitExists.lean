import Verif.Lemmas.DijkstraExists
import Verif.Props.Suurballe
import Verif.Spec.Split
import Mathlib.Data.Prod.Lex
import Mathlib.Data.List.Destutter

/-!
# Suurballe's algorithm can be run on every undirected graph
-/

namespace Pctsp

variable {V : Type} [LinearOrder V]

abbrev SplitV (V : Type) := V ×ₗ Bool

def tailOf (v : V) : SplitV V := toLex (v, false)
def headOf (v : V) : SplitV V := toLex (v, true)

/-- The split graph of an undirected graph. -/
def splitGraph (U : NxGraph V) (cost : V → V → Int) : DiGraph (SplitV V) where
  nodes := U.nodes.map tailOf ++ U.nodes.map headOf
  succ x := match ofLex x with
    | (v, false) => if v ∈ U.nodes then [headOf v] else []
    | (v, true) => (U.adj v).map tailOf
  weight x y := if (ofLex x).2 then cost (ofLex x).1 (ofLex y).1 else 0

/-- The names of the vertices of the split graph. -/
def splitNames : SplitNames V (SplitV V) where
  isTail x := !(ofLex x).2
  original x := (ofLex x).1
  path l := (l.map fun x => (ofLex x).1).destutter (· ≠ ·)

theorem tailOf_inj {u v : V} (h : tailOf u = tailOf v) : u = v := by
  have := congrArg (fun x => (ofLex x).1) h
  simpa [tailOf] using this

theorem headOf_inj {u v : V} (h : headOf u = headOf v) : u = v := by
  have := congrArg (fun x => (ofLex x).1) h
  simpa [headOf] using this

theorem tailOf_ne_headOf (u v : V) : tailOf u ≠ headOf v := by
  intro h
  have := congrArg (fun x => (ofLex x).2) h
  simp [tailOf, headOf] at this

theorem succ_tailOf (U : NxGraph V) (cost : V → V → Int) (v : V) :
    (splitGraph U cost).succ (tailOf v) = if v ∈ U.nodes then [headOf v] else [] := rfl

theorem succ_headOf (U : NxGraph V) (cost : V → V → Int) (v : V) : (splitGraph U cost).succ (headOf v) = (U.adj v).map tailOf := rfl

theorem splitV_cases (x : SplitV V) : (∃ v, x = tailOf v) ∨ ∃ v, x = headOf v := by
  obtain ⟨v, b⟩ := x
  cases b with
  | false => exact .inl ⟨v, rfl⟩
  | true => exact .inr ⟨v, rfl⟩

theorem splitGraph_wf {U : NxGraph V} (hU : U.WF) {cost : V → V → Int} (hc : ∀ u v, v ∈ U.adj u → 0 ≤ cost u v) : (splitGraph U cost).WF where
  nodup := by
    refine List.nodup_append'.2 ⟨hU.nodup.map fun _ _ => tailOf_inj, hU.nodup.map fun _ _ => headOf_inj, ?_⟩
    intro x h1 h2
    obtain ⟨u, -, rfl⟩ := List.mem_map.1 h1
    obtain ⟨v, -, e⟩ := List.mem_map.1 h2
    exact tailOf_ne_headOf _ _ e.symm
  succNodup x := by
    rcases splitV_cases x with ⟨v, rfl⟩ | ⟨v, rfl⟩
    · rw [succ_tailOf]; split <;> simp
    · rw [succ_headOf]; exact (hU.adjNodup v).map fun _ _ => tailOf_inj
  closed x y h := by
    rcases splitV_cases x with ⟨v, rfl⟩ | ⟨v, rfl⟩
    · rw [succ_tailOf] at h
      split at h
      · rename_i hv
        obtain rfl := List.mem_singleton.1 h
        exact ⟨List.mem_append_left _ (List.mem_map_of_mem hv), List.mem_append_right _ (List.mem_map_of_mem hv)⟩
      · simp at h
    · rw [succ_headOf] at h
      obtain ⟨u, hu, rfl⟩ := List.mem_map.1 h
      obtain ⟨h1, h2⟩ := hU.closed _ _ hu
      exact ⟨List.mem_append_right _ (List.mem_map_of_mem h1), List.mem_append_left _ (List.mem_map_of_mem h2)⟩
  noLoop x h := by
    rcases splitV_cases x with ⟨v, rfl⟩ | ⟨v, rfl⟩
    · rw [succ_tailOf] at h
      split at h
      · exact tailOf_ne_headOf _ _ (List.mem_singleton.1 h)
      · simp at h
    · rw [succ_headOf] at h
      obtain ⟨u, -, e⟩ := List.mem_map.1 h
      exact tailOf_ne_headOf _ _ e
  nonneg x y h := by
    rcases splitV_cases x with ⟨v, rfl⟩ | ⟨v, rfl⟩
    · simp [splitGraph, tailOf]
    · rw [succ_headOf] at h
      obtain ⟨u, hu, rfl⟩ := List.mem_map.1 h
      simpa [splitGraph, tailOf, headOf] using hc _ _ hu

theorem splitGraph_split (U : NxGraph V) (cost : V → V → Int) : SplitOf U cost (splitGraph U cost) tailOf headOf where
  tailInj _ _ := tailOf_inj
  headInj _ _ := headOf_inj
  disj := tailOf_ne_headOf
  edges x y h := by
    rcases splitV_cases x with ⟨v, rfl⟩ | ⟨v, rfl⟩
    · rw [succ_tailOf] at h
      split at h
      · exact .inl ⟨v, rfl, List.mem_singleton.1 h⟩
      · simp at h
    · rw [succ_headOf] at h
      obtain ⟨u, hu, rfl⟩ := List.mem_map.1 h
      exact .inr ⟨v, u, rfl, rfl, hu⟩
  inner v hv := by rw [succ_tailOf, if_pos hv]; simp
  outer a b h := by rw [succ_headOf]; exact List.mem_map_of_mem h
  innerCost v _ := by simp [splitGraph, tailOf]
  outerCost a b _ := by simp [splitGraph, tailOf, headOf]

theorem destutter'_expand : ∀ (l : List V) (r : V), (∀ e ∈ consec (r :: l), e.1 ≠ e.2) →
    ((expand tailOf headOf l).map fun x : SplitV V => (ofLex x).1).destutter' (· ≠ ·) r = r :: l
  | [], r, _ => by simp [expand]
  | [v], r, h => by
    have : r ≠ v := h (r, v) (by simp [consec])
    simp [expand, tailOf, List.destutter'_cons, this]
  | a :: b :: l, r, h => by
    have h1 : r ≠ a := h (r, a) (by simp [consec])
    have ih := destutter'_expand (b :: l) a fun e he => h e (by simp only [consec, List.tail_cons, List.zip_cons_cons, List.mem_cons] at he ⊢; exact .inr he)
    simp only [expand, List.map_cons, tailOf, headOf, ofLex_toLex, List.destutter'_cons] at ih ⊢
    rw [if_pos h1]
    simp only [ne_eq, not_true_eq_false, if_false]
    rw [ih]

theorem splitNames_ok : (splitNames (V := V)).Ok tailOf headOf where
  tailTrue v := by simp [splitNames, tailOf]
  headFalse v := by simp [splitNames, headOf]
  original v := by simp [splitNames, tailOf]
  path r l _ h := by
    have := destutter'_expand l r h
    simpa [splitNames, headOf, List.destutter_cons'] using this

/-- On every undirected graph with symmetric non-negative costs Suurballe's algorithm can be run for every root. -/
theorem exists_suurballeOn {U : NxGraph V} (hU : U.WF) {cost : V → V → Int} (hs : ∀ u v, v ∈ U.adj u → cost u v = cost v u)
    (hc : ∀ u v, v ∈ U.adj u → 0 ≤ cost u v) (r : V) :
    ∃ dij depth T st, SuurballeOn U cost (splitGraph U cost) tailOf headOf splitNames r dij depth T st := by
  obtain ⟨dij, hd⟩ := exists_dijkstra (splitGraph_wf hU hc) (headOf r)
  have hb : ∃ depth, ∀ x ∈ dij.distKeys, (dij.path x).length ≤ depth := by
    generalize dij.distKeys = l
    induction l with
    | nil => exact ⟨0, by simp⟩
    | cons a l ih =>
      obtain ⟨n, hn⟩ := ih
      refine ⟨max n (dij.path a).length, fun x hx => ?_⟩
      rcases List.mem_cons.1 hx with rfl | hx
      · exact Nat.le_max_right _ _
      · exact Nat.le_trans (hn x hx) (Nat.le_max_left _ _)
  obtain ⟨depth, hdepth⟩ := hb
  rcases C80_total (splitGraph_wf hU hc) hd depth with ⟨-, T, st, h⟩ | ⟨⟨x, hx, hlt⟩, -⟩
  · exact ⟨dij, depth, T, st, hU, hs, splitGraph_wf hU hc, splitGraph_split U cost, splitNames_ok, hd, h⟩
  · exact absurd (hdepth x hx) (by omega)

end Pctsp
