import Verif.Model.Load
import Mathlib.Data.List.Basic

/-!
# Loading instances
-/

namespace Pctsp

variable {N U V P : Type} [DecidableEq V]

theorem renameDemand_all {demand : V → Option Int} {l : List V} {prize : V → Option Int} (h : ∀ x ∈ l, (demand x).isSome) :
    renameDemand demand l prize = ((fun x => if x ∈ l then demand x else prize x), false) := by
  induction l generalizing prize with
  | nil => simp [renameDemand]
  | cons v l ih =>
    obtain ⟨d, hd⟩ := Option.isSome_iff_exists.1 (h v (by simp))
    rw [renameDemand, hd]
    dsimp only
    rw [ih fun x hx => h x (by simp [hx])]
    congr 1
    funext x
    by_cases h1 : x ∈ l
    · simp [h1]
    · by_cases h2 : x = v
      · simp [h1, h2, hd]
      · simp [h1, h2]

theorem renameDemand_missing {demand : V → Option Int} {l : List V} {prize : V → Option Int} (h : ∃ x ∈ l, demand x = none) :
    (renameDemand demand l prize).2 = true := by
  induction l generalizing prize with
  | nil => obtain ⟨x, hx, _⟩ := h; cases hx
  | cons v l ih =>
    rw [renameDemand]
    cases hd : demand v with
    | none => rfl
    | some d =>
      obtain ⟨x, hx, hx'⟩ := h
      rcases List.mem_cons.1 hx with rfl | hx
      · rw [hd] at hx'; cases hx'
      · exact ih ⟨x, hx, hx'⟩

theorem loadPrizes_all {g : RawGraph V} {problem : Option (V → Option Int)} (h : ∀ x ∈ g.nodes, (g.demand x).isSome) :
    loadPrizes g problem = some fun x => if x ∈ g.nodes then g.demand x else none := by
  rw [loadPrizes, renameDemand_all h]

theorem loadPrizes_missing {g : RawGraph V} (h : ∃ x ∈ g.nodes, g.demand x = none) :
    loadPrizes g none = none ∧ ∀ score, ∃ prize, loadPrizes g (some score) = some prize ∧
      (∀ x ∈ g.nodes, ∀ p, score x = some p → prize x = some p) ∧ ∀ x ∉ g.nodes, prize x = none := by
  have h2 := renameDemand_missing (prize := fun _ => none) h
  unfold loadPrizes
  rcases hr : renameDemand g.demand g.nodes (fun _ => none) with ⟨prize, b⟩
  rw [hr] at h2
  dsimp only at h2
  subst h2
  refine ⟨rfl, fun score => ⟨_, rfl, fun x hx p hp => ?_, fun x hx => if_neg hx⟩⟩
  simp [hx, hp]

theorem instanceOf_all {env : LoadEnv N V} {problem problem' : Option (V → Option Int)} {c : DataConf N} {g : RawGraph V}
    (h : ∀ x ∈ g.nodes, (g.demand x).isSome) : instanceOf env problem c g = instanceOf env problem' c g := by
  rw [instanceOf, instanceOf, loadPrizes_all h, loadPrizes_all h]

/-- The two costs of an edge agree: the dictionary names no edge in both directions with different costs. -/
theorem setEdgeCosts_cost {g : AttrGraph V} {new : List ((V × V) × Int)} {e : V × V} {c : Int}
    (hmem : (e, c) ∈ new ∨ ((e.2, e.1), c) ∈ new) (huniq : ∀ c', ((e, c') ∈ new ∨ ((e.2, e.1), c') ∈ new) → c' = c) :
    (setEdgeCosts g new).cost e = some c := by
  rw [setEdgeCosts]
  cases hf : new.reverse.find? (fun c => decide (c.1 = e ∨ c.1 = (e.2, e.1))) with
  | none =>
    rw [List.find?_eq_none] at hf
    rcases hmem with h | h
    · exact absurd (by simp) (hf _ (List.mem_reverse.2 h))
    · exact absurd (by simp) (hf _ (List.mem_reverse.2 h))
  | some d =>
    have h1 := List.find?_some hf
    have h2 := List.mem_reverse.1 (List.mem_of_find?_eq_some hf)
    obtain ⟨d1, d2⟩ := d
    simp only [decide_eq_true_eq] at h1
    have : d2 = c := by
      rcases h1 with rfl | rfl
      · exact huniq _ (.inl h2)
      · exact huniq _ (.inr h2)
    subst this
    show (((new.reverse.find? _).map Prod.snd).or _) = _
    rw [hf]
    rfl

theorem setEdgeCosts_keep {g : AttrGraph V} {new : List ((V × V) × Int)} {e : V × V}
    (h : ∀ c, (e, c) ∉ new ∧ ((e.2, e.1), c) ∉ new) : (setEdgeCosts g new).cost e = g.cost e := by
  rw [setEdgeCosts]
  have hf : new.reverse.find? (fun c => decide (c.1 = e ∨ c.1 = (e.2, e.1))) = none := by
    rw [List.find?_eq_none]
    rintro ⟨d1, d2⟩ hd
    simp only [decide_eq_true_eq]
    rintro (rfl | rfl)
    · exact (h d2).1 (List.mem_reverse.1 hd)
    · exact (h d2).2 (List.mem_reverse.1 hd)
  show (((new.reverse.find? _).map Prod.snd).or _) = _
  rw [hf]
  rfl

end Pctsp
