import Verif.Spec.Ieee
import Verif.Spec.Tables
import Verif.Spec.Batch
import Verif.Lemmas.Ieee
import Verif.Lemmas.Float
import Verif.Lemmas.Extension
import Verif.Lemmas.Agree
import Mathlib.Tactic.FieldSimp

/-! Helper lemmas: single and double precision. -/

namespace Pctsp

theorem roundTo_abs_le {p : Nat} {emin : Int} (hp : 0 < p) {x : Rat} {e : Int} (he : emin ≤ e) (h : |x| ≤ 2 ^ e) :
    |roundTo p emin x| ≤ 2 ^ e := by
  have h1 : roundTo p emin ((1 : Int) * 2 ^ e) = (1 : Int) * 2 ^ e :=
    roundTo_exact hp (by rw [abs_one]; exact_mod_cast Nat.one_le_two_pow) he
  simp only [Int.cast_one, one_mul] at h1
  rw [abs_le] at h ⊢
  refine ⟨?_, ?_⟩
  · have := roundTo_mono (emin := emin) hp h.1
    rwa [roundTo_neg, h1] at this
  · have := roundTo_mono (emin := emin) hp h.2
    rwa [h1] at this

theorem le_abs_roundTo {p : Nat} {emin : Int} (hp : 0 < p) {x : Rat} {e : Int} (he : emin ≤ e) (h : 2 ^ e ≤ |x|) :
    2 ^ e ≤ |roundTo p emin x| := by
  have h1 : roundTo p emin ((1 : Int) * 2 ^ e) = (1 : Int) * 2 ^ e :=
    roundTo_exact hp (by rw [abs_one]; exact_mod_cast Nat.one_le_two_pow) he
  simp only [Int.cast_one, one_mul] at h1
  rw [le_abs] at h ⊢
  rcases h with h | h
  · left; have := roundTo_mono (emin := emin) hp h; rwa [h1] at this
  · right; have := roundTo_mono (emin := emin) hp h; rwa [h1, roundTo_neg] at this

/-- Rounding to single precision without overflow. -/
abbrev f32 (x : Rat) : Rat := roundTo 24 (-149) x

theorem binary32_fin {x : Rat} (h : |x| ≤ 2 ^ (127 : Int)) : binary32 x = .fin (f32 x) := by
  unfold binary32 ieeeRound
  rw [if_pos]
  exact lt_of_le_of_lt (roundTo_abs_le (by norm_num) (by norm_num) h) (by norm_num)

theorem f32_mono {x y : Rat} (h : x ≤ y) : f32 x ≤ f32 y := roundTo_mono (by norm_num) h

theorem f32_int {i : Int} (h : |i| ≤ 2 ^ 24) : f32 i = i := by
  have := roundTo_exact (p := 24) (emin := -149) (m := i) (e := 0) (by norm_num) h (by norm_num)
  simpa using this

theorem toInt32_eq {i : Int} (h1 : -2 ^ 31 ≤ i) (h2 : i < 2 ^ 31) : toInt32 i = i := by
  unfold toInt32; omega

theorem toInt32_abs (i : Int) : |(toInt32 i : Rat)| ≤ 2 ^ (31 : Int) := by
  have h1 : -2 ^ 31 ≤ toInt32 i := by unfold toInt32; omega
  have h2 : toInt32 i ≤ 2 ^ 31 := by unfold toInt32; omega
  have h1' : (-2 ^ 31 : Rat) ≤ toInt32 i := by exact_mod_cast h1
  have h2' : (toInt32 i : Rat) ≤ 2 ^ 31 := by exact_mod_cast h2
  rw [abs_le]
  norm_num at h1' h2' ⊢
  exact ⟨h1', h2'⟩

/-- The converted number. -/
def ofInt32 (i : Int) : Rat := f32 (toInt32 i)

theorem ofInt32_abs (i : Int) : |ofInt32 i| ≤ 2 ^ (31 : Int) := roundTo_abs_le (by norm_num) (by norm_num) (toInt32_abs i)

theorem float_ofInt (i : Int) : FloatOps.float.ofInt i = .fin (ofInt32 i) :=
  binary32_fin ((toInt32_abs i).trans (by norm_num))

theorem ofInt32_exact {i : Int} (h : |i| ≤ 2 ^ 24) : ofInt32 i = i := by
  unfold ofInt32
  rw [toInt32_eq (by rw [abs_le] at h; omega) (by rw [abs_le] at h; omega), f32_int h]

theorem ofInt32_pos {i : Int} (h : 0 < i) : 1 ≤ ofInt32 i := by
  have h1 : (1 : Int) ≤ toInt32 i := by unfold toInt32; omega
  have h2 : ((1 : Int) : Rat) ≤ toInt32 i := by exact_mod_cast h1
  have := f32_mono h2
  rw [f32_int (by norm_num), Int.cast_one] at this
  exact this

theorem ofInt32_neg (i : Int) (h : i < 0) : ofInt32 i ≤ -1 := by
  have h1 : toInt32 i ≤ -1 := by unfold toInt32; omega
  have h2 : (toInt32 i : Rat) ≤ ((-1 : Int) : Rat) := by exact_mod_cast h1
  have := f32_mono h2
  rw [f32_int (i := -1) (by norm_num), Int.cast_neg, Int.cast_one] at this
  exact this

theorem ofInt32_zero : ofInt32 0 = 0 := by rw [ofInt32_exact (by norm_num)]; simp

theorem float_div_def : FloatOps.float.div = Ext.div binary32 := rfl

theorem float_div {a b : Int} (hb : b ≠ 0) :
    FloatOps.float.div (FloatOps.float.ofInt a) (FloatOps.float.ofInt b) = .fin (f32 (ofInt32 a / ofInt32 b)) := by
  have h1 : 1 ≤ |ofInt32 b| := by
    rw [le_abs]
    rcases lt_or_gt_of_ne hb with h | h
    · right; linarith [ofInt32_neg b h]
    · left; exact ofInt32_pos h
  have hne : ofInt32 b ≠ 0 := by intro h; rw [h] at h1; norm_num at h1
  rw [float_ofInt, float_ofInt, float_div_def]
  simp only [Ext.div, if_neg hne]
  refine binary32_fin ?_
  rw [abs_div, div_le_iff₀ (by linarith)]
  calc |ofInt32 a| ≤ 2 ^ (31 : Int) := ofInt32_abs a
    _ ≤ 2 ^ (127 : Int) * 1 := by norm_num
    _ ≤ 2 ^ (127 : Int) * |ofInt32 b| := mul_le_mul_of_nonneg_left h1 (by positivity)

theorem float_div_zero {a : Int} :
    FloatOps.float.div (FloatOps.float.ofInt a) (FloatOps.float.ofInt 0) = if a = 0 then .nan else .inf (decide (a < 0)) := by
  rw [float_ofInt, float_ofInt, ofInt32_zero, float_div_def]
  simp only [Ext.div, if_true]
  rcases lt_trichotomy a 0 with h | h | h
  · have := ofInt32_neg a h
    rw [if_neg (by linarith), if_neg (by omega)]
    simp only [h, decide_true]
    rw [decide_eq_true (by linarith)]
  · subst h; simp [ofInt32_zero]
  · have := ofInt32_pos h
    rw [if_neg (by linarith), if_neg (by omega), decide_eq_false (by linarith), decide_eq_false (by omega)]

theorem Ext.comparable_ne_nan {O : FloatOps Ext} (hO : O.lt = Ext.lt) {x : Ext} : O.Comparable x ↔ x ≠ .nan := by
  unfold FloatOps.Comparable
  rw [hO]
  rcases x with _ | s | q
  · simp [Ext.lt]
  · cases s
    · simpa using ⟨.fin 0, Or.inr rfl⟩
    · simpa using ⟨.fin 0, Or.inl rfl⟩
  · simpa using ⟨.inf false, Or.inl rfl⟩

theorem Ext.lt_asymm (a b : Ext) (h : Ext.lt a b = true) : Ext.lt b a = false := by
  rcases a with _ | (_ | _) | a <;> rcases b with _ | (_ | _) | b <;> simp_all [Ext.lt]
  exact le_of_lt h

theorem Ext.lt_negTrans (a b c : Ext) (hb : b ≠ .nan) (h1 : Ext.lt a b = false) (h2 : Ext.lt b c = false) : Ext.lt a c = false := by
  rcases a with _ | (_ | _) | a <;> rcases b with _ | (_ | _) | b <;> rcases c with _ | (_ | _) | c <;> simp_all [Ext.lt]
  exact h2.trans h1

/-- Numbers that are neither below nor above each other are equal, unless one is a NaN. -/
theorem Ext.eq_of_not_lt {a b : Ext} (ha : a ≠ .nan) (hb : b ≠ .nan) (h1 : Ext.lt a b = false) (h2 : Ext.lt b a = false) : a = b := by
  rcases a with _ | (_ | _) | a <;> rcases b with _ | (_ | _) | b <;> simp_all [Ext.lt]
  exact le_antisymm h2 h1

theorem float_strict : FloatOps.float.Strict := ⟨Ext.lt_irrefl, Ext.lt_trans, Ext.lt_cotrans⟩

theorem float_lt_zero (q : Rat) : FloatOps.float.lt FloatOps.float.zero (.fin q) = decide (0 < q) := rfl

theorem float_sign (d : Int) : FloatOps.float.lt FloatOps.float.zero (FloatOps.float.ofInt d) = true ↔ 0 < d := by
  rw [float_ofInt, float_lt_zero, decide_eq_true_eq]
  refine ⟨fun h => ?_, fun h => lt_of_lt_of_le one_pos (ofInt32_pos h)⟩
  by_contra hd
  rcases lt_or_eq_of_le (not_lt.1 hd) with h' | h'
  · linarith [ofInt32_neg d h']
  · subst h'; rw [ofInt32_zero] at h; exact lt_irrefl _ h

theorem float_lawful : FloatOps.float.Lawful where
  sign := float_sign
  asymm := Ext.lt_asymm
  negTrans a b c hb := Ext.lt_negTrans a b c ((Ext.comparable_ne_nan rfl).1 hb)
  loss c d hd := by
    rw [float_div (by omega), Ext.comparable_ne_nan rfl]
    simp

theorem f32_zero : f32 0 = 0 := roundTo_zero

theorem f32_nonpos {x : Rat} (h : x ≤ 0) : f32 x ≤ 0 := by have := f32_mono h; rwa [f32_zero] at this

theorem float_divSign : FloatOps.float.DivSign where
  zeroDiv d := by
    by_cases hd : d = 0
    · subst hd; rw [float_div_zero]; rfl
    · rw [float_div hd, float_lt_zero, decide_eq_false_iff_not, ofInt32_zero, zero_div, f32_zero]
      exact lt_irrefl _
  negDiv p d hp hd := by
    rw [float_div (by omega), float_lt_zero, decide_eq_false_iff_not, not_lt]
    refine f32_nonpos (div_nonpos_of_nonneg_of_nonpos ?_ (by linarith [ofInt32_neg d hd]))
    rcases lt_or_eq_of_le hp with h | h
    · linarith [ofInt32_pos h]
    · subst h; rw [ofInt32_zero]

theorem float_posDiv : FloatOps.float.PosDiv := by
  intro p d hp hd
  rcases lt_or_eq_of_le hd with h | h
  · rw [float_div (by omega), float_lt_zero, decide_eq_true_eq]
    have h1 := ofInt32_pos hp
    have h2 := ofInt32_pos h
    have h3 := ofInt32_abs d
    rw [abs_of_pos (by linarith)] at h3
    have h4 : (2 : Rat) ^ (-31 : Int) ≤ ofInt32 p / ofInt32 d := by
      rw [le_div_iff₀ (by linarith)]
      calc (2 : Rat) ^ (-31 : Int) * ofInt32 d ≤ 2 ^ (-31 : Int) * 2 ^ (31 : Int) := mul_le_mul_of_nonneg_left h3 (by positivity)
        _ = 1 := by norm_num
        _ ≤ ofInt32 p := h1
    have h5 := f32_mono h4
    have h6 : f32 ((1 : Int) * 2 ^ (-31 : Int)) = (1 : Int) * 2 ^ (-31 : Int) := roundTo_exact (by norm_num) (by norm_num) (by norm_num)
    simp only [Int.cast_one, one_mul] at h6
    rw [h6] at h5
    exact lt_of_lt_of_le (by positivity) h5
  · subst h
    rw [float_div_zero, if_neg (by omega), decide_eq_false (by omega)]
    rfl

/-! Errors. -/

theorem f32_error {x : Rat} (h : x = 0 ∨ 2 ^ (-126 : Int) ≤ |x|) : |f32 x - x| ≤ |x| / 2 ^ 24 := by
  rcases h with rfl | h
  · simp [f32_zero]
  · exact roundTo_relative (by simpa using h)

theorem int_cases (i : Int) : (i : Rat) = 0 ∨ 1 ≤ |(i : Rat)| := by
  by_cases h : i = 0
  · left; exact_mod_cast h
  · right
    have : 1 ≤ |i| := Int.one_le_abs h
    exact_mod_cast this

theorem ratio_error {a b : Int} (hb : b ≠ 0) (hB : |b| ≤ 2 ^ 24) : |f32 (a / b) - a / b| ≤ |(a : Rat) / b| / 2 ^ 24 := by
  refine f32_error ?_
  rcases int_cases a with h | h
  · left; rw [h, zero_div]
  · right
    have h1 : 0 < |(b : Rat)| := abs_pos.2 (by exact_mod_cast hb)
    have h2 : |(b : Rat)| ≤ 2 ^ 24 := by exact_mod_cast hB
    rw [abs_div, le_div_iff₀ h1]
    calc (2 : Rat) ^ (-126 : Int) * |(b : Rat)| ≤ 2 ^ (-126 : Int) * 2 ^ 24 := mul_le_mul_of_nonneg_left h2 (by positivity)
      _ ≤ 1 := by norm_num
      _ ≤ |(a : Rat)| := h

/-- Rounding keeps the order of two ratios that are far enough apart. -/
theorem f32_lt {x y : Rat} (hx : |f32 x - x| ≤ |x| / 2 ^ 24) (hy : |f32 y - y| ≤ |y| / 2 ^ 24) (h : (|x| + |y|) / 2 ^ 24 < y - x) : f32 x < f32 y := by
  have h1 := (abs_le.1 hx).2
  have h2 := (abs_le.1 hy).1
  rw [add_div] at h
  linarith

theorem f32_ratio_lt {a b c d A B : Int} (hb : b ≠ 0) (hd : d ≠ 0) (ha : |a| ≤ A) (hb' : |b| ≤ B) (hc : |c| ≤ A) (hd' : |d| ≤ B) (hB : B ≤ 2 ^ 24)
    (hAB : A * B < 2 ^ 23) : decide (f32 (a / b) < f32 (c / d)) = decide ((a : Rat) / b < c / d) := by
  rw [decide_eq_decide]
  constructor
  · intro h
    by_contra h'
    exact absurd (f32_mono (not_lt.1 h')) (not_le.2 h)
  · intro h
    refine f32_lt (ratio_error hb (hb'.trans hB)) (ratio_error hd (hd'.trans hB)) ?_
    have hb0 : 0 < |b| := abs_pos.2 hb
    have hd0 : 0 < |d| := abs_pos.2 hd
    have hbq : (0 : Rat) < |(b : Rat)| := by exact_mod_cast hb0
    have hdq : (0 : Rat) < |(d : Rat)| := by exact_mod_cast hd0
    have hbn : (b : Rat) ≠ 0 := by exact_mod_cast hb
    have hdn : (d : Rat) ≠ 0 := by exact_mod_cast hd
    -- the difference is at least one over the product of the denominators
    have h1 : 1 / (|(b : Rat)| * |(d : Rat)|) ≤ (c : Rat) / d - a / b := by
      have e : (c : Rat) / d - a / b = (c * b - a * d : Int) / (b * d : Rat) := by
        push_cast
        field_simp
      have hpos : 0 < (c : Rat) / d - a / b := sub_pos.2 h
      have hne : (c * b - a * d : Int) ≠ 0 := by
        intro h0
        rw [e, h0] at hpos
        simp at hpos
      rw [← abs_of_pos hpos, e, abs_div, abs_mul]
      refine div_le_div_of_nonneg_right ?_ (by positivity)
      exact_mod_cast Int.one_le_abs hne
    have h2 : |(a : Rat) / b| + |(c : Rat) / d| = (|(a : Rat)| * |(d : Rat)| + |(c : Rat)| * |(b : Rat)|) / (|(b : Rat)| * |(d : Rat)|) := by
      rw [abs_div, abs_div]
      field_simp
    have hA0 : 0 ≤ A := (abs_nonneg a).trans ha
    have h3 : |a| * |d| + |c| * |b| < 2 ^ 24 := by
      have k1 : |a| * |d| ≤ A * B := mul_le_mul ha hd' (abs_nonneg d) hA0
      have k2 : |c| * |b| ≤ A * B := mul_le_mul hc hb' (abs_nonneg b) hA0
      omega
    have h3' : |(a : Rat)| * |(d : Rat)| + |(c : Rat)| * |(b : Rat)| < 2 ^ 24 := by exact_mod_cast h3
    refine lt_of_lt_of_le ?_ h1
    rw [h2, div_div, div_lt_div_iff₀ (by positivity) (by positivity), one_mul, mul_comm (|(b : Rat)| * |(d : Rat)|)]
    exact mul_lt_mul_of_pos_right h3' (by positivity)

theorem exact_div {a b : Int} (hb : b ≠ 0) :
    FloatOps.ieeeExact.div (FloatOps.ieeeExact.ofInt a) (FloatOps.ieeeExact.ofInt b) = .fin (a / b) := by
  have : (b : Rat) ≠ 0 := by exact_mod_cast hb
  simp [FloatOps.ieeeExact, FloatOps.ieee, Ext.div, this]

theorem exact_div_zero {a : Int} :
    FloatOps.ieeeExact.div (FloatOps.ieeeExact.ofInt a) (FloatOps.ieeeExact.ofInt 0) = if a = 0 then .nan else .inf (decide (a < 0)) := by
  simp [FloatOps.ieeeExact, FloatOps.ieee, Ext.div]

theorem float_div_small {a b : Int} (hb : b ≠ 0) (ha : |a| ≤ 2 ^ 24) (hb' : |b| ≤ 2 ^ 24) :
    FloatOps.float.div (FloatOps.float.ofInt a) (FloatOps.float.ofInt b) = .fin (f32 (a / b)) := by
  rw [float_div hb, ofInt32_exact ha, ofInt32_exact hb']

/-- Ratios of small numbers compare in single precision as they should. -/
theorem float_agree {A B : Int} (hA : 1 ≤ A) (hB : 1 ≤ B) (hAB : A * B < 2 ^ 23) : Agree FloatOps.float FloatOps.ieeeExact A B where
  lt a b c d ha hb hc hd := by
    have hA' : A ≤ 2 ^ 24 := by nlinarith
    have hB' : B ≤ 2 ^ 24 := by nlinarith
    by_cases h1 : b = 0
    · subst h1
      rw [float_div_zero, exact_div_zero]
      by_cases h2 : d = 0
      · subst h2
        rw [float_div_zero, exact_div_zero]
        rfl
      · rw [float_div h2, exact_div h2]
        split
        · rfl
        · generalize decide (a < 0) = s
          cases s <;> rfl
    · by_cases h2 : d = 0
      · subst h2
        rw [float_div_zero, exact_div_zero, float_div h1, exact_div h1]
        split
        · rfl
        · generalize decide (c < 0) = s
          cases s <;> rfl
      · rw [float_div_small h1 (ha.trans hA') (hb.trans hB'), float_div_small h2 (hc.trans hA') (hd.trans hB'), exact_div h1, exact_div h2]
        exact f32_ratio_lt h1 h2 ha hb hc hd hB' hAB
  zero := by
    rw [float_div_small (by norm_num) (by norm_num) (by norm_num)]
    simp only [Int.cast_zero, zero_div, f32_zero]
    rfl
  zero' := by
    rw [exact_div (by norm_num)]
    simp only [Int.cast_zero, zero_div]
    rfl
  pos d _ := by
    rw [Bool.eq_iff_iff, float_sign]
    simp [FloatOps.ieeeExact, FloatOps.ieee, Ext.lt]
  num := by omega
  den := hB

/-! Any numbers. -/

theorem ofInt32_error {i : Int} (h1 : -2 ^ 31 ≤ i) (h2 : i < 2 ^ 31) : |ofInt32 i - i| ≤ |(i : Rat)| / 2 ^ 24 := by
  unfold ofInt32
  rw [toInt32_eq h1 h2]
  refine f32_error ?_
  rcases int_cases i with h | h
  · exact .inl h
  · exact .inr (le_trans (by norm_num) h)

/-- The error of a quotient of two `int`s. -/
theorem quotient_error {a b : Int} (ha1 : -2 ^ 31 ≤ a) (ha2 : a < 2 ^ 31) (hb : 0 < b) (hb2 : b < 2 ^ 31) :
    |f32 (ofInt32 a / ofInt32 b) - a / b| ≤ |(a : Rat) / b| / 2 ^ 22 := by
  have ea := ofInt32_error ha1 ha2
  have eb := ofInt32_error (by omega) hb2
  have hbq : (0 : Rat) < b := by exact_mod_cast hb
  have hb1 := ofInt32_pos hb
  have hb3 := ofInt32_abs b
  rw [abs_of_pos (by linarith)] at hb3
  rw [abs_of_pos hbq] at eb
  generalize hA : ofInt32 a = A at *
  generalize hB : ofInt32 b = B at *
  have hBpos : 0 < B := by linarith
  have eb1 := (abs_le.1 eb).1
  -- the quotient before rounding
  have h1 : |A / B - a / b| ≤ |(a : Rat) / b| * (5 / 2 ^ 25) := by
    have e : A / B - a / b = ((A - a) * b + a * (b - B)) / (B * b) := by field_simp; ring
    rw [e, abs_div, abs_of_pos (mul_pos hBpos hbq), div_le_iff₀ (mul_pos hBpos hbq), abs_div, abs_of_pos hbq]
    have h2 : |(A - a) * b + a * (b - B)| ≤ |(a : Rat)| / 2 ^ 24 * b + |(a : Rat)| * (b / 2 ^ 24) := by
      refine (abs_add_le _ _).trans (add_le_add ?_ ?_)
      · rw [abs_mul, abs_of_pos hbq]; exact mul_le_mul_of_nonneg_right ea hbq.le
      · rw [abs_mul, abs_sub_comm]; exact mul_le_mul_of_nonneg_left eb (abs_nonneg _)
    refine h2.trans ?_
    have h3 : |(a : Rat)| / b * (5 / 2 ^ 25) * (B * b) = |(a : Rat)| * (5 / 2 ^ 25 * B) := by field_simp
    rw [h3]
    have h4 : |(a : Rat)| / 2 ^ 24 * b + |(a : Rat)| * (b / 2 ^ 24) = |(a : Rat)| * (b / 2 ^ 23) := by ring
    rw [h4]
    refine mul_le_mul_of_nonneg_left ?_ (abs_nonneg _)
    have : b - b / 2 ^ 24 ≤ B := by linarith
    have h5 : (5 / 2 ^ 25 : Rat) * (b - b / 2 ^ 24) ≤ 5 / 2 ^ 25 * B := mul_le_mul_of_nonneg_left this (by norm_num)
    refine le_trans ?_ h5
    have : (5 / 2 ^ 25 : Rat) * (b - b / 2 ^ 24) - b / 2 ^ 23 = b * ((5 / 2 ^ 25) * (1 - 1 / 2 ^ 24) - 1 / 2 ^ 23) := by ring
    have h6 : (0 : Rat) ≤ b * ((5 / 2 ^ 25) * (1 - 1 / 2 ^ 24) - 1 / 2 ^ 23) := mul_nonneg hbq.le (by norm_num)
    linarith
  have h2 : |f32 (A / B) - A / B| ≤ |A / B| / 2 ^ 24 := by
    refine f32_error ?_
    rcases lt_trichotomy a 0 with h | h | h
    · right
      have := ofInt32_neg a h
      rw [hA] at this
      rw [abs_div, abs_of_pos hBpos, le_div_iff₀ hBpos]
      calc (2 : Rat) ^ (-126 : Int) * B ≤ 2 ^ (-126 : Int) * 2 ^ (31 : Int) := mul_le_mul_of_nonneg_left hb3 (by positivity)
        _ ≤ 1 := by norm_num
        _ ≤ |A| := le_abs.2 (.inr (by linarith))
    · left; subst h; rw [← hA, ofInt32_zero, zero_div]
    · right
      have := ofInt32_pos h
      rw [hA] at this
      rw [abs_div, abs_of_pos hBpos, le_div_iff₀ hBpos]
      calc (2 : Rat) ^ (-126 : Int) * B ≤ 2 ^ (-126 : Int) * 2 ^ (31 : Int) := mul_le_mul_of_nonneg_left hb3 (by positivity)
        _ ≤ 1 := by norm_num
        _ ≤ |A| := le_abs.2 (.inl this)
  generalize hr : |(a : Rat) / b| = r at *
  have hr0 : 0 ≤ r := hr ▸ abs_nonneg _
  have h3 : |A / B| ≤ r + r * (5 / 2 ^ 25) := by
    have := abs_sub_abs_le_abs_sub (A / B) (a / b)
    rw [hr] at this
    linarith
  have h4 : |f32 (A / B) - a / b| ≤ |f32 (A / B) - A / B| + |A / B - a / b| := by
    have := abs_add_le (f32 (A / B) - A / B) (A / B - a / b)
    rwa [show f32 (A / B) - A / B + (A / B - a / b) = f32 (A / B) - a / b by ring] at this
  linarith

/-- If one quotient does not compare less than another, it is not much less. -/
theorem notMuchAbove_of {a b c d : Int} (ha1 : -2 ^ 31 ≤ a) (ha2 : a < 2 ^ 31) (hb : 0 < b) (hb2 : b < 2 ^ 31) (hc1 : -2 ^ 31 ≤ c) (hc2 : c < 2 ^ 31)
    (hd : 0 < d) (hd2 : d < 2 ^ 31)
    (h : FloatOps.float.lt (FloatOps.float.div (FloatOps.float.ofInt c) (FloatOps.float.ofInt d)) (FloatOps.float.div (FloatOps.float.ofInt a) (FloatOps.float.ofInt b)) = false) :
    NotMuchAbove a b c d := by
  rw [float_div (by omega), float_div (by omega)] at h
  have h : ¬ f32 (ofInt32 c / ofInt32 d) < f32 (ofInt32 a / ofInt32 b) := by
    intro h'
    have : FloatOps.float.lt (.fin (f32 (ofInt32 c / ofInt32 d))) (.fin (f32 (ofInt32 a / ofInt32 b))) = true := decide_eq_true h'
    rw [this] at h
    simp at h
  have e1 := (abs_le.1 (quotient_error ha1 ha2 hb hb2)).1
  have e2 := (abs_le.1 (quotient_error hc1 hc2 hd hd2)).2
  have hbq : (0 : Rat) < b := by exact_mod_cast hb
  have hdq : (0 : Rat) < d := by exact_mod_cast hd
  have h1 : (a : Rat) / b - c / d ≤ (|(a : Rat) / b| + |(c : Rat) / d|) / 2 ^ 22 := by
    rw [add_div]
    linarith
  rw [abs_div, abs_div, abs_of_pos hbq, abs_of_pos hdq] at h1
  have h2 : (2 : Rat) ^ 22 * (a * d - c * b) ≤ |(a : Rat)| * d + |(c : Rat)| * b := by
    have h3 := mul_le_mul_of_nonneg_right h1 (by positivity : (0 : Rat) ≤ 2 ^ 22 * (b * d))
    have e3 : ((a : Rat) / b - c / d) * (2 ^ 22 * (b * d)) = 2 ^ 22 * (a * d - c * b) := by field_simp
    have e4 : (|(a : Rat)| / b + |(c : Rat)| / d) / 2 ^ 22 * (2 ^ 22 * (b * d)) = |(a : Rat)| * d + |(c : Rat)| * b := by field_simp
    rwa [e3, e4] at h3
  unfold NotMuchAbove
  exact_mod_cast h2

/-! Double precision. -/

theorem rounds53 : Rounds53 (roundTo 53 (-1074)) where
  mono x y h := roundTo_mono (by norm_num) h
  exact m k h1 h2 hk := by
    have := roundTo_exact (p := 53) (emin := -1074) (m := m) (e := -(k : Int)) (by norm_num) (abs_le.2 ⟨h1, h2⟩) (by omega)
    rwa [zpow_neg, zpow_natCast, ← div_eq_mul_inv] at this

theorem roundsDouble : RoundsDouble binary64 where
  exact c hc := by
    have h := roundTo_exact (p := 53) (emin := -1074) (m := c) (e := 0) (by norm_num) hc (by norm_num)
    simp only [zpow_zero, mul_one] at h
    unfold binary64 ieeeRound
    rw [h, if_pos]
    have h1 : |(c : Rat)| ≤ 2 ^ (53 : Nat) := by exact_mod_cast hc
    refine lt_of_le_of_lt h1 ?_
    have : (2 : Rat) ^ (1024 : Int) = 2 ^ (1024 : Nat) := by rw [← zpow_natCast]; rfl
    rw [this]
    exact pow_lt_pow_right₀ (by norm_num) (by norm_num)
  noNan x := by unfold binary64 ieeeRound; split <;> simp
  keep k hk x hx y hy := by
    unfold binary64 ieeeRound at hy
    split at hy
    · injection hy with hy
      have hx' : (2 : Rat) ^ (-(k : Int)) ≤ |x| := by rwa [zpow_neg, zpow_natCast, ← one_div]
      have := le_abs_roundTo (p := 53) (emin := -1074) (by norm_num) (by omega) hx'
      rw [hy, zpow_neg, zpow_natCast, ← one_div] at this
      exact this
    · simp at hy
  nonneg x hx := by
    unfold binary64 ieeeRound
    split
    · exact .inr ⟨_, roundTo_nonneg hx, rfl⟩
    · left; rw [decide_eq_false (by linarith)]

end Pctsp
