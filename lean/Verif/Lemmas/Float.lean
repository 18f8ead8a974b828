import Verif.Model.Float
import Verif.Lemmas.Gain
import Mathlib.Data.Rat.Defs
import Mathlib.Algebra.Order.Field.Rat
import Mathlib.Algebra.Order.Field.Basic
import Mathlib.Tactic.Linarith

/-! Helper lemmas: laws of floating point operations. -/

namespace Pctsp

variable {F : Type}

/-- The sign of a quotient of two converted integers. -/
structure FloatOps.DivSign (O : FloatOps F) : Prop where
  zeroDiv : ∀ d : Int, O.lt O.zero (O.div (O.ofInt 0) (O.ofInt d)) = false
  negDiv : ∀ p d : Int, 0 ≤ p → d < 0 → O.lt O.zero (O.div (O.ofInt p) (O.ofInt d)) = false

/-- The quotient of a positive by a non-negative integer is positive (no underflow; a zero divisor gives an infinity). -/
def FloatOps.PosDiv (O : FloatOps F) : Prop :=
  ∀ p d : Int, 0 < p → 0 ≤ d → O.lt O.zero (O.div (O.ofInt p) (O.ofInt d)) = true

theorem Ext.lt_irrefl (a : Ext) : Ext.lt a a = false := by
  cases a with
  | nan => rfl
  | inf s => cases s <;> rfl
  | fin q => simp [Ext.lt]

theorem Ext.lt_trans (a b c : Ext) (h1 : Ext.lt a b = true) (h2 : Ext.lt b c = true) : Ext.lt a c = true := by
  rcases a with _ | (_ | _) | a <;> rcases b with _ | (_ | _) | b <;> rcases c with _ | (_ | _) | c <;>
    simp_all [Ext.lt]
  exact _root_.lt_trans h1 h2

theorem Ext.lt_cotrans (a b c : Ext) (h1 : Ext.lt a c = true) (h2 : Ext.lt (.fin 0) b = true) :
    Ext.lt a b = true ∨ Ext.lt b c = true := by
  rcases a with _ | (_ | _) | a <;> rcases b with _ | (_ | _) | b <;> rcases c with _ | (_ | _) | c <;>
    simp_all [Ext.lt]
  by_cases h : a < b
  · exact Or.inl h
  · exact Or.inr (lt_of_le_of_lt (not_lt.1 h) h1)

/-- IEEE comparisons are `Strict`, whatever the rounding. -/
theorem FloatOps.ieee_strict (rnd : Rat → Ext) : (FloatOps.ieee rnd).Strict :=
  ⟨Ext.lt_irrefl, Ext.lt_trans, Ext.lt_cotrans⟩

/-- Rounding that keeps the sign of integers and of quotients (possibly underflowing to zero or overflowing). -/
structure SignRounding (rnd : Rat → Ext) : Prop where
  zero : rnd 0 = .fin 0
  pos : ∀ q, 0 < q → Ext.lt (rnd q) (.fin 0) = false ∧ rnd q ≠ .nan
  neg : ∀ q, q < 0 → Ext.lt (.fin 0) (rnd q) = false ∧ rnd q ≠ .nan
  intPos : ∀ d : Int, 0 < d → Ext.lt (.fin 0) (rnd d) = true
  intNeg : ∀ d : Int, d < 0 → Ext.lt (rnd d) (.fin 0) = true

theorem SignRounding.fin : SignRounding .fin := by
  refine ⟨rfl, ?_, ?_, ?_, ?_⟩
  · intro q h; simp [Ext.lt, le_of_lt h]
  · intro q h; simp [Ext.lt, le_of_lt h]
  · intro d h; simp [Ext.lt, h]
  · intro d h; simp [Ext.lt, h]

theorem FloatOps.ieee_divSign {rnd : Rat → Ext} (h : SignRounding rnd) : (FloatOps.ieee rnd).DivSign := by
  refine ⟨?_, ?_⟩
  · intro d
    simp only [FloatOps.ieee, Int.cast_zero, h.zero]
    cases rnd d with
    | nan => rfl
    | inf s => simp [Ext.div, Ext.lt]
    | fin q =>
      by_cases hq : q = 0
      · simp [Ext.div, hq, Ext.lt]
      · simp [Ext.div, hq, Ext.lt, h.zero]
  · intro p d hp hd
    simp only [FloatOps.ieee]
    have hd' := h.intNeg d hd
    rcases lt_or_eq_of_le hp with hp | rfl
    · have hp' := h.intPos p hp
      generalize rnd (p : Rat) = a at *
      generalize rnd (d : Rat) = b at *
      rcases a with _ | (_ | _) | a <;> rcases b with _ | (_ | _) | b <;> simp_all [Ext.lt, Ext.div]
      · have hne : b ≠ 0 := ne_of_lt hd'
        rw [if_neg hne]
        exact (h.neg _ (div_neg_of_pos_of_neg hp' hd')).1
    · simp only [Int.cast_zero, h.zero]
      generalize rnd (d : Rat) = b at *
      rcases b with _ | (_ | _) | b <;> simp_all [Ext.lt, Ext.div]
      have hne : b ≠ 0 := ne_of_lt hd'
      rw [if_neg hne, h.zero]
      simp

theorem FloatOps.ieeeExact_posDiv : FloatOps.ieeeExact.PosDiv := by
  intro p d hp hd
  have hp' : (0 : Rat) < p := by exact_mod_cast hp
  rcases lt_or_eq_of_le hd with hd | rfl
  · have hd' : (0 : Rat) < d := by exact_mod_cast hd
    simp [FloatOps.ieeeExact, FloatOps.ieee, Ext.div, ne_of_gt hd', Ext.lt, hp, hd]
  · have : ¬ (p : Rat) < 0 := not_lt.2 (le_of_lt hp')
    simp [FloatOps.ieeeExact, FloatOps.ieee, Ext.div, ne_of_gt hp, Ext.lt, this]

theorem FloatOps.ieeeExact_strict : FloatOps.ieeeExact.Strict := FloatOps.ieee_strict _
theorem FloatOps.ieeeExact_divSign : FloatOps.ieeeExact.DivSign := FloatOps.ieee_divSign SignRounding.fin

end Pctsp
