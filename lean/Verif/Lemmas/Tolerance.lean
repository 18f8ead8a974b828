import Verif.Spec.Tolerance
import Verif.Props.Program
import Mathlib.Tactic.Linarith
import Mathlib.Tactic.Positivity
import Mathlib.Tactic.NormNum
import Mathlib.Tactic.GCongr
import Mathlib.Tactic.Ring
import Mathlib.Tactic.FieldSimp
import Mathlib.Tactic.Zify

/-! # Lemmas about solutions with tolerances -/

namespace Pctsp

theorem roundBin_binary (x : Nat → Rat) (e : Nat) : roundBin x e = 0 ∨ roundBin x e = 1 := by
  unfold roundBin; split <;> simp

theorem roundBin_near {tol : Rat} (ht : tol < 1 / 2) {x : Nat → Rat} {e : Nat} (h : NearBinary tol (x e)) : |x e - (roundBin x e : Rat)| ≤ tol := by
  unfold roundBin
  rcases h with h | h
  · have : ¬ 1 / 2 < x e := by have := abs_le.1 h; intro hh; linarith
    rw [if_neg this]; simpa using h
  · have : 1 / 2 < x e := by have := abs_le.1 h; linarith
    rw [if_pos this]; simpa using h

theorem sum_near {α : Type} (l : List α) (c : α → Int) (y : α → Rat) (z : α → Int) (tol : Rat) (h : ∀ a ∈ l, |y a - (z a : Rat)| ≤ tol) :
    |(l.map fun a => (c a : Rat) * y a).sum - ((l.map fun a => c a * z a).sum : Int)| ≤ tol * ((l.map fun a => |c a|).sum : Int) := by
  induction l with
  | nil => simp
  | cons a l ih =>
    have h1 := ih fun b hb => h b (by simp [hb])
    have h2 := h a (by simp)
    simp only [List.map_cons, List.sum_cons, Int.cast_add, Int.cast_mul, Int.cast_abs]
    have h3 : |(c a : Rat) * y a - c a * z a| ≤ tol * |(c a : Rat)| := by
      rw [← mul_sub, abs_mul, mul_comm]
      exact mul_le_mul_of_nonneg_right h2 (abs_nonneg _)
    have h4 := abs_le.1 h1
    have h5 := abs_le.1 h3
    rw [abs_le]
    constructor <;> nlinarith

theorem activityQ_near {tol : Rat} {m : Nat} {x : Nat → Rat} (hx : ∀ e < m, |x e - (roundBin x e : Rat)| ≤ tol) {r : Row} (hr : ∀ p ∈ r.coeffs, p.1 < m) :
    |r.activityQ x - (r.activity (roundBin x) : Int)| ≤ tol * ((r.coeffs.map fun p => |p.2|).sum : Int) :=
  sum_near r.coeffs (fun p => p.2) (fun p => x p.1) (fun p => roundBin x p.1) tol fun p hp => hx _ (hr p hp)

/-- A relative difference bounds the difference. -/
theorem relDiff_le {tol a b B : Rat} (h : relDiff a b ≤ tol) (htol : 0 ≤ tol) (h1 : 1 ≤ B) (ha : |a| ≤ B) (hb : |b| ≤ B) : a - b ≤ tol * B := by
  have hpos : 0 < max 1 (max |a| |b|) := lt_of_lt_of_le one_pos (le_max_left _ _)
  rw [relDiff, div_le_iff₀ hpos] at h
  exact h.trans (mul_le_mul_of_nonneg_left (max_le h1 (max_le ha hb)) htol)

theorem le_relDiff {tol a b B : Rat} (h : -tol ≤ relDiff a b) (htol : 0 ≤ tol) (h1 : 1 ≤ B) (ha : |a| ≤ B) (hb : |b| ≤ B) : b - a ≤ tol * B := by
  refine relDiff_le ?_ htol h1 hb ha
  rw [relDiff] at h ⊢
  rw [max_comm |b|, ← neg_sub a b, neg_div]
  linarith

/-- Near zero the relative tolerance is an absolute one. -/
theorem abs_of_relDiff_zero {tol a : Rat} (htol : 0 ≤ tol) (ht : tol < 1) (h1 : -tol ≤ relDiff a 0) (h2 : relDiff a 0 ≤ tol) : |a| ≤ tol := by
  have hpos : (0 : Rat) < max 1 (max |a| |0|) := lt_of_lt_of_le one_pos (le_max_left _ _)
  rw [relDiff, sub_zero] at h1 h2
  rw [div_le_iff₀ hpos] at h2
  rw [le_div_iff₀ hpos] at h1
  have h3 : |a| ≤ tol * max 1 |a| := by
    rw [abs_zero, max_eq_left (abs_nonneg a)] at h1 h2
    rw [abs_le]; constructor <;> linarith
  rcases le_total |a| 1 with h | h
  · rw [max_eq_left h] at h3; linarith
  · rw [max_eq_right h] at h3
    nlinarith

/-- What the rows of the model are. -/
theorem modelRows_mem {g : Graph} (hg : SimpleWithLoops g) {prize : Nat → Int} {quota : Int} {root : Nat} (hroot : root < g.n) {rows : List Row}
    (h : modelWithoutSECs g prize quota root = .ok rows) :
    ∃ loop, g.edgeIdx root root = some loop ∧ (∀ row, row ∈ rows ↔ row = prizeRow g (putPrizeOntoEdgeWeights g prize) quota ∨ row = rootRow loop ∨
      ∃ v < g.n, degreeRow g v = .ok row) := by
  obtain ⟨loop, hl⟩ := Option.isSome_iff_exists.1 (edgeIdx_isSome_iff.2 (Or.inl (hg.loops root hroot) : Adj g root root))
  refine ⟨loop, hl, ?_⟩
  simp only [modelWithoutSECs, Graph.edge, if_pos hroot, hl, Res.ok_bind] at h
  obtain ⟨deg, hdeg, h⟩ := Res.bind_eq_ok.1 h
  rw [Res.pure_eq] at h
  injection h with h
  subst h
  have h2 := mapRes_eq_ok.1 (hdeg : mapRes (degreeRow g) (List.range g.n) = .ok deg)
  intro row
  simp only [List.mem_cons]
  refine or_congr Iff.rfl (or_congr Iff.rfl ?_)
  constructor
  · intro hr
    obtain ⟨v, hv, h3⟩ := forall₂_left_mem h2.flip hr
    exact ⟨v, List.mem_range.1 hv, h3⟩
  · rintro ⟨v, hv, h3⟩
    obtain ⟨r, hr, h4⟩ := forall₂_left_mem h2 (List.mem_range.2 hv)
    rw [h3] at h4
    injection h4 with h4
    rw [h4]; exact hr

/-- The edges at a vertex lead to different vertices. -/
theorem incident_length {g : Graph} (hg : SimpleWithLoops g) {v : Nat} (hv : v < g.n) : ((List.range g.edges.length).filter (incident g v)).length + 1 ≤ g.n := by
  let other : Nat → Nat := fun e => if (endsOf g e).1 = v then (endsOf g e).2 else (endsOf g e).1
  have hinc : ∀ e ∈ (List.range g.edges.length).filter (incident g v), g.edges[e]? = some (endsOf g e) ∧ (endsOf g e).1 ≠ (endsOf g e).2 ∧
      ((endsOf g e).1 = v ∨ (endsOf g e).2 = v) := by
    intro e he
    obtain ⟨h1, h2⟩ := List.mem_filter.1 he
    have h3 : g.edges[e]? = some (endsOf g e) := by simp [endsOf, List.mem_range.1 h1]
    refine ⟨h3, ?_⟩
    simpa [incident, h3] using h2
  have hnd : (v :: ((List.range g.edges.length).filter (incident g v)).map other).Nodup := by
    rw [List.nodup_cons]
    constructor
    · intro hm
      obtain ⟨e, he, ho⟩ := List.mem_map.1 hm
      obtain ⟨-, h1, h2⟩ := hinc e he
      simp only [other] at ho
      split at ho <;> omega
    · refine List.Nodup.map_on ?_ (List.nodup_range.filter _)
      intro e he f hf hef
      obtain ⟨h1, h2, h3⟩ := hinc e he
      obtain ⟨k1, k2, k3⟩ := hinc f hf
      refine hg.idx_unique h1 k1 ?_
      rw [und_eq_iff]
      simp only [other] at hef
      split at hef <;> split at hef <;> omega
  have hsub : (v :: ((List.range g.edges.length).filter (incident g v)).map other) ⊆ List.range g.n := by
    intro w hw
    rcases List.mem_cons.1 hw with rfl | hw
    · exact List.mem_range.2 hv
    · obtain ⟨e, he, rfl⟩ := List.mem_map.1 hw
      have := hg.wf _ (List.mem_of_getElem? (hinc e he).1)
      simp only [other, List.mem_range]
      split
      · exact this.2
      · exact this.1
  have := (hnd.subperm hsub).length_le
  simpa using this

theorem int_eq_of_near {a b : Int} (h : |(a : Rat) - b| < 1) : a = b := by
  have : |a - b| < 1 := by exact_mod_cast h
  rw [Int.abs_lt_one_iff] at this
  omega

/-- The degree rows hold exactly for the nearest 0/1 vector. -/
theorem degree_round {g : Graph} (hg : SimpleWithLoops g) {tol : Rat} (htol : 0 ≤ tol) (ht : (g.n + 2) * tol < 1) {x : Nat → Rat}
    (hx : ∀ e < g.edges.length, |x e - (roundBin x e : Rat)| ≤ tol) {v : Nat} (hv : v < g.n) {row : Row} (hrow : degreeRow g v = .ok row)
    (hs : row.SatTol tol x) : edgeSum g (roundBin x) (incident g v) = 2 * loopVal g (roundBin x) v := by
  obtain ⟨row', h1, h2⟩ := degreeRow_sat hg hv (roundBin x)
  rw [hrow] at h1
  injection h1 with h1
  subst h1
  rw [← h2]
  obtain ⟨loop, hl, h3⟩ := degreeRow_simple hg hv
  rw [hrow] at h3
  injection h3 with h3
  have hlhs : row.lhs = some 0 := by rw [h3]
  have hrhs : row.rhs = some 0 := by rw [h3]
  have hlen := incident_length hg hv
  have hn : (1 : Rat) ≤ g.n := by
    have : 1 ≤ g.n := by omega
    exact_mod_cast this
  have ht1 : tol < 1 := by nlinarith
  have h4 := abs_of_relDiff_zero htol ht1 (by simpa using hs.1 0 hlhs) (by simpa using hs.2 0 hrhs)
  have h5 := activityQ_near hx (r := row) (by
    rw [h3]
    intro p hp
    rcases List.mem_cons.1 hp with rfl | hp
    · rcases edgeIdx_eq_some hl with h | h <;> exact (List.getElem?_eq_some_iff.1 h).1
    · obtain ⟨e, he, rfl⟩ := List.mem_map.1 hp
      exact List.mem_range.1 (List.mem_filter.1 he).1)
  have hsum : ((row.coeffs.map fun p => |p.2|).sum : Int) = 2 + ((List.range g.edges.length).filter (incident g v)).length := by
    rw [h3]
    simp [Function.comp_def]
  rw [hsum] at h5
  have h6 : row.activity (roundBin x) = 0 := by
    apply int_eq_of_near
    have h7 := abs_le.1 h4
    have h8 := abs_le.1 h5
    have h9 : tol * ((2 + (((List.range g.edges.length).filter (incident g v)).length : Int) : Int) : Rat) ≤ tol * (g.n + 1) := by
      refine mul_le_mul_of_nonneg_left ?_ htol
      have : (2 + ((List.range g.edges.length).filter (incident g v)).length : Rat) ≤ g.n + 1 := by
        have : (2 + ((List.range g.edges.length).filter (incident g v)).length) ≤ g.n + 1 := by omega
        exact_mod_cast this
      exact_mod_cast this
    rw [abs_lt]
    push_cast at h9 h8 ⊢
    constructor <;> nlinarith
  exact ⟨fun l hl' => by rw [hlhs] at hl'; cases hl'; omega, fun u hu => by rw [hrhs] at hu; cases hu; omega⟩

/-- So does the row of the root. -/
theorem root_round {g : Graph} {root loop : Nat} (hl : g.edgeIdx root root = some loop) {tol : Rat} (htol : 0 ≤ tol) (ht : tol < 1 / 3) {x : Nat → Rat}
    (hx : NearBinary tol (x loop)) (hs : (rootRow loop).SatTol tol x) : loopVal g (roundBin x) root = 1 := by
  have h1 : (rootRow loop).activityQ x = x loop := by simp [Row.activityQ, rootRow]
  have h2 := hs.1 1 rfl
  rw [h1, Int.cast_one] at h2
  rw [loopVal, hl, Option.getD_some]
  rcases hx with hx | hx
  · exfalso
    have := le_relDiff h2 htol (le_refl 1) (hx.trans (by linarith)) (by simp)
    have := abs_le.1 hx
    linarith
  · unfold roundBin
    rw [if_pos]
    have := abs_le.1 hx
    linarith

end Pctsp
