import Mathlib.Tactic.FieldSimp
import Mathlib.Tactic.Positivity
import Mathlib.Tactic.Linarith
import Mathlib.Algebra.Order.Round
import Verif.Spec.Ieee

/-!
# Helper lemmas: rounding
-/

namespace Pctsp

theorem halfEven_cases (q : Rat) : (halfEven q = ⌊q⌋ ∧ q - ⌊q⌋ ≤ 1 / 2) ∨ (halfEven q = ⌊q⌋ + 1 ∧ 1 / 2 ≤ q - ⌊q⌋) := by
  unfold halfEven
  split
  · left; exact ⟨rfl, by linarith⟩
  · split
    · right; exact ⟨rfl, by linarith⟩
    · split
      · left; exact ⟨rfl, by linarith⟩
      · right; exact ⟨rfl, by linarith⟩

theorem halfEven_error (q : Rat) : |(halfEven q : Rat) - q| ≤ 1 / 2 := by
  have h1 := Int.floor_le q
  have h2 := Int.lt_floor_add_one q
  rcases halfEven_cases q with ⟨h, h'⟩ | ⟨h, h'⟩ <;> rw [h, abs_le] <;> push_cast <;> constructor <;> linarith

theorem halfEven_int (m : Int) : halfEven (m : Rat) = m := by
  have : (m : Rat) - ⌊(m : Rat)⌋ < 1 / 2 := by simp
  unfold halfEven
  rw [if_pos this]
  simp

theorem halfEven_mono {x y : Rat} (h : x ≤ y) : halfEven x ≤ halfEven y := by
  have hf := Int.floor_mono h
  rcases lt_or_eq_of_le hf with hf | hf
  · rcases halfEven_cases x with ⟨h1, -⟩ | ⟨h1, -⟩ <;> rcases halfEven_cases y with ⟨h2, -⟩ | ⟨h2, -⟩ <;> rw [h1, h2] <;> omega
  · unfold halfEven
    rw [hf]
    split
    · split
      · omega
      · split
        · omega
        · split <;> omega
    · split
      · split
        · linarith
        · split
          · omega
          · linarith
      · split
        · split
          · linarith
          · split
            · omega
            · omega
        · split
          · linarith
          · split <;> omega

theorem halfEven_neg (q : Rat) : halfEven (-q) = -halfEven q := by
  have h1 := Int.floor_le q
  have h2 := Int.lt_floor_add_one q
  by_cases hq : q = ⌊q⌋
  · rw [hq, ← Int.cast_neg, halfEven_int, halfEven_int]
  · have h3 : (⌊q⌋ : Rat) < q := lt_of_le_of_ne h1 (Ne.symm hq)
    have h4 : ⌊-q⌋ = -⌊q⌋ - 1 := by
      rw [Int.floor_eq_iff]
      push_cast
      constructor <;> linarith
    unfold halfEven
    rw [h4]
    push_cast
    by_cases ha : q - ⌊q⌋ < 1 / 2
    · rw [if_neg (by linarith), if_pos (by linarith), if_pos ha]; omega
    · by_cases hb : 1 / 2 < q - ⌊q⌋
      · rw [if_pos (by linarith), if_neg ha, if_pos hb]; omega
      · rw [if_neg (by linarith), if_neg (by linarith), if_neg ha, if_neg hb]
        by_cases hc : ⌊q⌋ % 2 = 0
        · rw [if_neg (by omega), if_pos hc]; omega
        · rw [if_pos (by omega), if_neg hc]; omega

variable {p : Nat} {emin : Int}

theorem two_zpow_pos (e : Int) : (0 : Rat) < 2 ^ e := zpow_pos (by norm_num) e

theorem lastExponent_neg (x : Rat) : lastExponent p emin (-x) = lastExponent p emin x := by unfold lastExponent; rw [abs_neg]

theorem roundTo_neg (x : Rat) : roundTo p emin (-x) = -roundTo p emin x := by
  unfold roundTo
  rw [lastExponent_neg, neg_div, halfEven_neg]
  push_cast
  ring

theorem roundTo_zero : roundTo p emin 0 = 0 := by
  unfold roundTo
  have := halfEven_int 0
  simp only [Int.cast_zero] at this
  simp [this]

/-- A multiple of the weight of the last digit stays a bound. -/
theorem roundTo_le_of {x : Rat} {m : Int} (h : x ≤ m * 2 ^ lastExponent p emin x) : roundTo p emin x ≤ m * 2 ^ lastExponent p emin x := by
  have hq := two_zpow_pos (lastExponent p emin x)
  have h1 : halfEven (x / 2 ^ lastExponent p emin x) ≤ m := by
    rw [← halfEven_int m]
    exact halfEven_mono (by rwa [div_le_iff₀ hq])
  have h2 : (halfEven (x / 2 ^ lastExponent p emin x) : Rat) ≤ m := by exact_mod_cast h1
  exact mul_le_mul_of_nonneg_right h2 hq.le

theorem le_roundTo_of {x : Rat} {m : Int} (h : m * 2 ^ lastExponent p emin x ≤ x) : m * 2 ^ lastExponent p emin x ≤ roundTo p emin x := by
  have := roundTo_le_of (p := p) (emin := emin) (x := -x) (m := -m) (by rw [lastExponent_neg]; push_cast; linarith)
  rw [roundTo_neg, lastExponent_neg] at this
  push_cast at this
  linarith

theorem zpow_split {a b : Int} (h : b ≤ a) : (2 : Rat) ^ a = ((2 ^ (a - b).toNat : Int) : Rat) * 2 ^ b := by
  obtain ⟨n, rfl⟩ := Int.le.dest h
  rw [show (b + (n : Int) - b).toNat = n by omega, zpow_add₀ (by norm_num)]
  push_cast
  rw [mul_comm]
  congr 1

theorem roundTo_error (x : Rat) : |roundTo p emin x - x| ≤ 2 ^ lastExponent p emin x / 2 := by
  have hq := two_zpow_pos (lastExponent p emin x)
  have h := halfEven_error (x / 2 ^ lastExponent p emin x)
  have : roundTo p emin x - x = (halfEven (x / 2 ^ lastExponent p emin x) - x / 2 ^ lastExponent p emin x) * 2 ^ lastExponent p emin x := by
    unfold roundTo
    field_simp
  rw [this, abs_mul, abs_of_pos hq]
  nlinarith

theorem zpow_le_abs {x : Rat} (hx : x ≠ 0) : (2 : Rat) ^ Int.log 2 |x| ≤ |x| := by
  have := (Int.zpow_le_iff_le_log (b := 2) (by norm_num) (abs_pos.2 hx)).2 (le_refl (Int.log 2 |x|))
  exact_mod_cast this

theorem abs_lt_zpow {x : Rat} (hx : x ≠ 0) : |x| < (2 : Rat) ^ (Int.log 2 |x| + 1) := by
  have := (Int.lt_zpow_iff_log_lt (b := 2) (by norm_num) (abs_pos.2 hx)).2 (lt_add_one (Int.log 2 |x|))
  exact_mod_cast this

/-- The numbers of the format, without overflow. -/
theorem roundTo_exact (hp : 0 < p) {m e : Int} (hm : |m| ≤ 2 ^ p) (he : emin ≤ e) : roundTo p emin (m * 2 ^ e) = m * 2 ^ e := by
  by_cases h0 : m = 0
  · rw [h0]; simp [roundTo_zero]
  have hx : (m : Rat) * 2 ^ e ≠ 0 := mul_ne_zero (by exact_mod_cast h0) (two_zpow_pos e).ne'
  -- the last digit of `m * 2 ^ e` is not above `2 ^ e`, unless `|m| = 2 ^ p`
  suffices h : ∃ k : Int, (m : Rat) * 2 ^ e = k * 2 ^ lastExponent p emin (m * 2 ^ e) by
    obtain ⟨k, hk⟩ := h
    unfold roundTo
    have hq := two_zpow_pos (lastExponent p emin (m * 2 ^ e))
    have : (m : Rat) * 2 ^ e / 2 ^ lastExponent p emin (m * 2 ^ e) = k := by
      rw [div_eq_iff hq.ne']; exact hk
    rw [this, halfEven_int, ← hk]
  have habs : |(m : Rat) * 2 ^ e| = |m| * 2 ^ e := by rw [abs_mul, abs_of_pos (two_zpow_pos e)]; push_cast; rfl
  have hlog : Int.log 2 |(m : Rat) * 2 ^ e| ≤ e + p := by
    have h1 := zpow_le_abs hx
    rw [habs] at h1
    have h2 : (|m| : Rat) ≤ 2 ^ p := by exact_mod_cast hm
    have h3 : (2 : Rat) ^ Int.log 2 |(m : Rat) * 2 ^ e| ≤ 2 ^ (e + p) := by
      rw [habs]
      refine h1.trans ?_
      rw [zpow_add₀ (by norm_num), mul_comm, zpow_natCast]
      push_cast
      exact mul_le_mul_of_nonneg_left h2 (two_zpow_pos e).le
    exact (zpow_le_zpow_iff_right₀ (by norm_num)).1 h3
  by_cases hle : lastExponent p emin (m * 2 ^ e) ≤ e
  · refine ⟨m * 2 ^ (e - lastExponent p emin (m * 2 ^ e)).toNat, ?_⟩
    conv_lhs => rw [zpow_split hle]
    push_cast
    ring
  · -- then `|m| = 2 ^ p`
    have h4 : Int.log 2 |(m : Rat) * 2 ^ e| = e + p := by
      have : e < Int.log 2 |(m : Rat) * 2 ^ e| - (p - 1) := by
        unfold lastExponent at hle
        rcases le_total (Int.log 2 |(m : Rat) * 2 ^ e| - (p - 1)) emin with h | h
        · rw [max_eq_right h] at hle; omega
        · rw [max_eq_left h] at hle; omega
      omega
    have h5 : lastExponent p emin (m * 2 ^ e) = e + 1 := by
      unfold lastExponent
      rw [h4]
      omega
    have h6 : |m| = 2 ^ p := by
      have h1 := zpow_le_abs hx
      rw [h4, habs, zpow_add₀ (by norm_num), mul_comm, zpow_natCast] at h1
      have h2 : (2 : Rat) ^ p ≤ (|m| : Int) := le_of_mul_le_mul_right h1 (two_zpow_pos e)
      have h3 : (2 : Int) ^ p ≤ |m| := by exact_mod_cast h2
      omega
    rw [h5]
    have h7 : (2 : Int) ∣ m := by
      rw [← dvd_abs, h6]
      exact dvd_pow_self 2 (by omega)
    obtain ⟨k, hk⟩ := h7
    refine ⟨k, ?_⟩
    rw [hk, zpow_add_one₀ (by norm_num)]
    push_cast
    ring

theorem roundTo_nonneg {x : Rat} (hx : 0 ≤ x) : 0 ≤ roundTo p emin x := by
  have := le_roundTo_of (p := p) (emin := emin) (x := x) (m := 0) (by simpa using hx)
  simpa using this

theorem roundTo_mono_pos (hp : 0 < p) {x y : Rat} (hx : 0 < x) (h : x ≤ y) : roundTo p emin x ≤ roundTo p emin y := by
  have hy : 0 < y := lt_of_lt_of_le hx h
  have hlog : Int.log 2 |x| ≤ Int.log 2 |y| := by
    rw [abs_of_pos hx, abs_of_pos hy]
    exact Int.log_mono_right hx h
  by_cases he : lastExponent p emin x = lastExponent p emin y
  · have hq := two_zpow_pos (lastExponent p emin y)
    unfold roundTo
    rw [he]
    have h1 : halfEven (x / 2 ^ lastExponent p emin y) ≤ halfEven (y / 2 ^ lastExponent p emin y) :=
      halfEven_mono (div_le_div_of_nonneg_right h hq.le)
    have h2 : (halfEven (x / 2 ^ lastExponent p emin y) : Rat) ≤ halfEven (y / 2 ^ lastExponent p emin y) := by exact_mod_cast h1
    exact mul_le_mul_of_nonneg_right h2 hq.le
  · -- a power of two lies in between
    have h1 : lastExponent p emin y = Int.log 2 |y| - (p - 1) ∧ lastExponent p emin x < lastExponent p emin y ∧ Int.log 2 |x| < Int.log 2 |y| := by
      unfold lastExponent at he ⊢
      omega
    obtain ⟨h1, h2, h3⟩ := h1
    have hx' : x ≤ 2 ^ Int.log 2 |y| := by
      have := abs_lt_zpow hx.ne'
      rw [abs_of_pos hx] at this
      refine this.le.trans ?_
      rw [← abs_of_pos hx]
      exact zpow_le_zpow_right₀ (by norm_num) (by rw [abs_of_pos hx] at h3 ⊢; omega)
    have hy' : (2 : Rat) ^ Int.log 2 |y| ≤ y := by
      have := zpow_le_abs hy.ne'
      rwa [abs_of_pos hy] at this ⊢
    have hX : roundTo p emin x ≤ 2 ^ Int.log 2 |y| := by
      have hs := zpow_split (a := Int.log 2 |y|) (b := lastExponent p emin x) (by omega)
      rw [hs] at hx' ⊢
      exact roundTo_le_of hx'
    have hY : (2 : Rat) ^ Int.log 2 |y| ≤ roundTo p emin y := by
      have hs := zpow_split (a := Int.log 2 |y|) (b := lastExponent p emin y) (by omega)
      rw [hs] at hy' ⊢
      exact le_roundTo_of hy'
    exact hX.trans hY

theorem roundTo_mono (hp : 0 < p) {x y : Rat} (h : x ≤ y) : roundTo p emin x ≤ roundTo p emin y := by
  rcases lt_trichotomy x 0 with hx | rfl | hx
  · rcases le_or_gt 0 y with hy | hy
    · have h1 := roundTo_nonneg (p := p) (emin := emin) (x := -x) (by linarith)
      rw [roundTo_neg] at h1
      have h2 := roundTo_nonneg (p := p) (emin := emin) hy
      linarith
    · have := roundTo_mono_pos (p := p) (emin := emin) hp (x := -y) (y := -x) (by linarith) (by linarith)
      rw [roundTo_neg, roundTo_neg] at this
      linarith
  · rw [roundTo_zero]; exact roundTo_nonneg h
  · exact roundTo_mono_pos hp hx h

/-- The relative error of numbers that are not subnormal. -/
theorem roundTo_relative {x : Rat} (hx : 2 ^ (emin + p - 1) ≤ |x|) : |roundTo p emin x - x| ≤ |x| / 2 ^ p := by
  have h0 : x ≠ 0 := by
    rintro rfl
    rw [abs_zero] at hx
    linarith [two_zpow_pos (emin + p - 1)]
  have h1 := abs_lt_zpow h0
  have h2 : emin + p - 1 ≤ Int.log 2 |x| := by
    have := (zpow_lt_zpow_iff_right₀ (by norm_num : (1 : Rat) < 2)).1 (lt_of_le_of_lt hx h1)
    omega
  have h3 : lastExponent p emin x = Int.log 2 |x| - p + 1 := by
    unfold lastExponent
    rw [max_eq_left (by omega)]
    ring
  refine (roundTo_error x).trans ?_
  rw [h3, zpow_add_one₀ (by norm_num), zpow_sub₀ (by norm_num), zpow_natCast, mul_div_assoc, show (2 : Rat) / 2 = 1 by norm_num, mul_one]
  exact div_le_div_of_nonneg_right (zpow_le_abs h0) (by positivity)

end Pctsp
