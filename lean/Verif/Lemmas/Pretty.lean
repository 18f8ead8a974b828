import Verif.Model.Pretty
import Verif.Lemmas.Tables
import Mathlib.Data.List.Nodup
import Mathlib.Data.List.Perm.Basic
import Mathlib.Tactic.NormNum
import Mathlib.Tactic.Linarith

/-!
# Labels of tables and the figure of the heuristics
-/

namespace Pctsp

theorem replaceUnder_getElem {names : List String} {col : String} {f : Cell → Cell} {cells : List Cell} {j : Nat} {n : String} {c : Cell}
    (hn : names[j]? = some n) (hc : cells[j]? = some c) : (replaceUnder names col f cells)[j]? = some (if n = col then f c else c) := by
  simp [replaceUnder, List.getElem?_zipWith, hn, hc]

theorem replaceUnder_not_mem {names : List String} {col : String} {f : Cell → Cell} {cells : List Cell} (h : col ∉ names) (hl : cells.length = names.length) :
    replaceUnder names col f cells = cells := by
  induction names generalizing cells with
  | nil => simp at hl; simp [replaceUnder, hl]
  | cons n names ih =>
    match cells, hl with
    | c :: cells, hl =>
      simp only [List.mem_cons, not_or] at h
      have := ih (cells := cells) h.2 (by simpa using hl)
      simp only [replaceUnder] at this
      simp [replaceUnder, this, Ne.symm h.1]

theorem length_replaceUnder {names : List String} {col : String} {f : Cell → Cell} {cells : List Cell} (hl : cells.length = names.length) :
    (replaceUnder names col f cells).length = names.length := by
  simp [replaceUnder, hl]

/-- Every row has a cell for every column and a label for every level of the index. -/
def Frame.Shaped (d : Frame) : Prop := ∀ r ∈ d.rows, r.1.length = d.index.length ∧ r.2.length = d.columns.length

/-- One round of the loop, row by row. -/
theorem prettyRound_eq {long : Bool} {d : Frame} (h : d.Shaped) (col : String) :
    d.prettyRound long col = { d with rows := d.rows.map fun r =>
      (replaceUnder d.index col (prettyValue long) r.1, replaceUnder d.columns col (prettyValue long) r.2) } := by
  have hi : ∀ d : Frame, d.Shaped → (if col ∈ d.index then d.mapLevel col (prettyValue long) else d) = d.mapLevel col (prettyValue long) := by
    intro d hd
    split
    · rfl
    · rename_i hn
      unfold Frame.mapLevel
      have : d.rows.map (fun r => (replaceUnder d.index col (prettyValue long) r.1, r.2)) = d.rows := by
        conv_rhs => rw [← List.map_id d.rows]
        exact List.map_congr_left fun r hr => by rw [replaceUnder_not_mem hn (hd r hr).1]; rfl
      rw [this]
  have hc : (if col ∈ d.columns then d.mapColumn col (prettyValue long) else d) = d.mapColumn col (prettyValue long) := by
    split
    · rfl
    · rename_i hn
      unfold Frame.mapColumn
      have : d.rows.map (fun r => (r.1, replaceUnder d.columns col (prettyValue long) r.2)) = d.rows := by
        conv_rhs => rw [← List.map_id d.rows]
        exact List.map_congr_left fun r hr => by rw [replaceUnder_not_mem hn (h r hr).2]; rfl
      rw [this]
  have hs : (d.mapColumn col (prettyValue long)).Shaped := by
    intro r hr
    simp only [Frame.mapColumn, List.mem_map] at hr ⊢
    obtain ⟨r, hr, rfl⟩ := hr
    exact ⟨(h r hr).1, length_replaceUnder (h r hr).2⟩
  unfold Frame.prettyRound
  rw [hc]
  dsimp only
  rw [hi _ hs]
  simp only [Frame.mapLevel, Frame.mapColumn, List.map_map]
  rfl

theorem prettyRound_shaped {long : Bool} {d : Frame} (h : d.Shaped) (col : String) : (d.prettyRound long col).Shaped := by
  rw [prettyRound_eq h]
  intro r hr
  simp only [List.mem_map] at hr ⊢
  obtain ⟨r, hr, rfl⟩ := hr
  exact ⟨length_replaceUnder (h r hr).1, length_replaceUnder (h r hr).2⟩

theorem branchingLabel_named : branchingLabel (.num 0) = .text "Relative branching" ∧ branchingLabel (.num 1) = .text "Strong branching" ∧
    branchingLabel (.num 2) = .text "Strong at tree top" ∧ branchingLabel (.num 4) = .text "Default" := by decide +kernel

theorem branchingLabel_other {q : Rat} (q0 : q ≠ 0) (q1 : q ≠ 1) (q2 : q ≠ 2) (q4 : q ≠ 4) : branchingLabel (.num q) = .num q := by
  have e0 : (q == 0) = false := by simpa using q0
  have e1 : (q == 1) = false := by simpa using q1
  have e2 : (q == 2) = false := by simpa using q2
  have e4 : (q == 4) = false := by simpa using q4
  simp [branchingLabel, branchingReplacements, List.lookup, e0, e1, e2, e4]

theorem ccName_inj {a b c d : Bool} {s : String} (h : ccName a b = some s) (h' : ccName c d = some s) : (a, b) = (c, d) := by
  have hh := h.trans h'.symm
  clear h h'
  revert a b c d
  decide +kernel

theorem mapM_getElem?_eq {α β : Type} {f : α → Option β} {l : List α} {r : List β} : l.mapM f = some r ↔ l.length = r.length ∧ ∀ (j : Nat) a, l[j]? = some a → f a = r[j]? := by
  induction l generalizing r with
  | nil => cases r <;> simp
  | cons a l ih =>
    simp only [List.mapM_cons, Option.bind_eq_bind, Option.bind_eq_some_iff, Option.pure_def, Option.some.injEq]
    constructor
    · rintro ⟨b, hb, r', hr', rfl⟩
      obtain ⟨h1, h2⟩ := ih.1 hr'
      refine ⟨by simp [h1], fun j x hj => ?_⟩
      cases j with
      | zero => simp at hj; subst hj; simpa using hb
      | succ j => simpa using h2 j x (by simpa using hj)
    · rintro ⟨h1, h2⟩
      match r, h1 with
      | b :: r, h1 =>
        exact ⟨b, by simpa using h2 0 a rfl, r, ih.2 ⟨by simpa using h1, fun j x hj => by simpa using h2 (j + 1) x (by simpa using hj)⟩, rfl⟩

theorem mem_uniqueValues {K : Type} [DecidableEq K] {l : List K} {k : K} : k ∈ uniqueValues l ↔ k ∈ l := by
  refine ⟨mem_dropDuplicates, fun h => ?_⟩
  induction l with
  | nil => cases h
  | cons a l ih =>
    simp only [uniqueValues, dropDuplicates, List.mem_cons, List.mem_filter, id] at ih ⊢
    by_cases hk : k = a
    · exact .inl hk
    · exact .inr ⟨ih ((List.mem_cons.1 h).resolve_left hk), by simpa using hk⟩

theorem uniqueValues_nodup {K : Type} [DecidableEq K] (l : List K) : (uniqueValues l).Nodup := by
  simpa [uniqueValues] using dropDuplicates_nodup id l

/-- The rows with a key in a list without repetitions are those with its first key, those with its second, and so on. -/
theorem flatMap_filter_perm {α κ : Type} [DecidableEq κ] (key : α → κ) (rows : List α) {ks : List κ} (h : ks.Nodup) :
    (ks.flatMap fun k => rows.filter fun r => decide (key r = k)).Perm (rows.filter fun r => decide (key r ∈ ks)) := by
  induction ks with
  | nil => simp
  | cons k ks ih =>
    obtain ⟨h1, h2⟩ := List.nodup_cons.1 h
    rw [List.flatMap_cons]
    refine ((ih h2).append_left _).trans ?_
    have := List.filter_append_perm (fun r => decide (key r = k)) (rows.filter fun r => decide (key r ∈ k :: ks))
    refine List.Perm.trans (List.Perm.of_eq ?_) this
    rw [List.filter_filter, List.filter_filter]
    congr 1
    · refine List.filter_congr fun r _ => ?_
      by_cases hr : key r = k <;> simp [hr]
    · refine List.filter_congr fun r _ => ?_
      by_cases hr : key r = k
      · simp [hr, h1]
      · simp [hr]

variable {K : Type} [DecidableEq K]

/-- All points of a figure, whether they can be seen or not. -/
def boxPoints (boxes : List (Box K)) : List (K × String × Ext) := boxes.flatMap fun b => b.gaps.map fun x => (b.kappa, b.algorithm, x)

theorem visiblePoints_eq (boxes : List (Box K)) : visiblePoints boxes = (boxPoints boxes).filter fun p =>
    columnShown ((figureCategories boxes).idxOf p.1) && (inUpperPanel p.2.2 || inLowerPanel p.2.2) := by
  unfold visiblePoints boxPoints
  generalize figureCategories boxes = cats
  induction boxes with
  | nil => rfl
  | cons b boxes ih =>
    rw [List.flatMap_cons, List.flatMap_cons, List.filter_append, ih]
    congr 1
    cases h : columnShown (cats.idxOf b.kappa) <;> simp [List.filter_map, Function.comp_def, h]

/-- The points of the boxes are the rows of the cost function with a drawn algorithm, each once. -/
theorem boxPoints_perm (rows : List (FigureRow K)) (cost : String) (legend : Bool) {ks : List K} (hk : ks.Nodup) :
    (boxPoints (figureBoxes rows cost legend ks).1).Perm
      ((rows.filter fun r => decide (r.kappa ∈ ks) && decide (r.cost = cost) && decide (r.algorithm ∈ figureAlgorithms)).map
        fun r => (r.kappa, r.algorithm, r.gap)) := by
  have one : ∀ (k : K) (leg : Bool), (boxPoints (figureAlgorithms.map fun a => (⟨k, a, (((rows.filter fun r => decide (r.kappa = k)).filter fun r =>
      decide (r.cost = cost)).filter fun r => decide (r.algorithm = a)).map (·.gap), leg⟩ : Box K))).Perm
      (((rows.filter fun r => decide (r.cost = cost) && decide (r.algorithm ∈ figureAlgorithms)).filter fun r => decide (r.kappa = k)).map
        fun r => (r.kappa, r.algorithm, r.gap)) := by
    intro k leg
    have := (flatMap_filter_perm (fun r : FigureRow K => r.algorithm) ((rows.filter fun r => decide (r.kappa = k)).filter fun r => decide (r.cost = cost))
      (ks := figureAlgorithms) (by decide +kernel)).map fun r => (r.kappa, r.algorithm, r.gap)
    refine List.Perm.trans (List.Perm.of_eq ?_) (this.trans (List.Perm.of_eq ?_))
    · unfold boxPoints
      rw [List.flatMap_map, List.map_flatMap]
      congr 1
      funext a
      rw [List.map_map]
      refine List.map_congr_left fun r hr => ?_
      simp only [List.mem_filter, decide_eq_true_eq] at hr
      simp [hr.1.1.2, hr.2]
    · congr 1
      rw [List.filter_filter, List.filter_filter, List.filter_filter]
      refine List.filter_congr fun r _ => ?_
      by_cases h1 : r.kappa = k <;> by_cases h2 : r.cost = cost <;> simp [h1, h2]
  have all : (boxPoints (figureBoxes rows cost legend ks).1).Perm ((ks.flatMap fun k => (rows.filter fun r => decide (r.cost = cost) &&
      decide (r.algorithm ∈ figureAlgorithms)).filter fun r => decide (r.kappa = k)).map fun r => (r.kappa, r.algorithm, r.gap)) := by
    induction ks generalizing legend with
    | nil => simp [figureBoxes, boxPoints]
    | cons k ks ih =>
      have ih := ih (legend := false) (List.nodup_cons.1 hk).2
      rw [List.flatMap_cons, List.map_append]
      have := (one k legend).append ih
      simpa only [figureBoxes, boxPoints, List.flatMap_append] using this
  refine all.trans (((flatMap_filter_perm (fun r : FigureRow K => r.kappa) _ hk).map _).trans (List.Perm.of_eq ?_))
  rw [List.filter_filter]
  congr 1
  refine List.filter_congr fun r _ => ?_
  simp [Bool.and_assoc]

theorem mem_figureCategories {boxes : List (Box K)} {k : K} : k ∈ figureCategories boxes ↔ ∃ p ∈ boxPoints boxes, p.1 = k := by
  rw [figureCategories, mem_uniqueValues]
  simp only [boxPoints, List.mem_flatMap, List.mem_map]
  constructor
  · rintro ⟨b, hb, x, hx, rfl⟩
    exact ⟨_, ⟨b, hb, x, hx, rfl⟩, rfl⟩
  · rintro ⟨_, ⟨b, hb, x, hx, rfl⟩, rfl⟩
    exact ⟨b, hb, x, hx, rfl⟩

theorem columnShown_iff (i : Nat) : columnShown i = true ↔ i < 5 := by
  unfold columnShown
  rw [decide_eq_true_iff]
  constructor
  · rintro ⟨-, h⟩
    have : (i : Rat) < ((5 : Nat) : Rat) := by push_cast; linarith
    exact_mod_cast this
  · intro h
    have h1 : (0 : Rat) ≤ i := by exact_mod_cast Nat.zero_le i
    have h2 : (i : Rat) ≤ ((4 : Nat) : Rat) := by exact_mod_cast Nat.le_of_lt_succ h
    push_cast at h2
    exact ⟨by linarith, by linarith⟩

theorem uniqueValues_length_le {l five : List K} (h : ∀ k ∈ l, k ∈ five) : (uniqueValues l).length ≤ five.length :=
  ((uniqueValues_nodup l).subperm fun _ hk => h _ (mem_uniqueValues.1 hk)).length_le

end Pctsp
