import Verif.Lemmas.Single
import Verif.Props.Gain
import Verif.Props.UnitaryLoss

/-!
# Property C139: the heuristics in single precision
-/

namespace Pctsp

/-! ### What holds of all numbers -/

/-- C139: the arithmetic of `float` has the properties that the theorems on the heuristics assume, for all `int`s; numbers that are neither below nor above
each other are equal unless one is a NaN; an `int` of at most 24 bits is converted without error. -/
theorem C139_laws :
    FloatOps.float.Lawful ∧ FloatOps.float.Strict ∧ FloatOps.float.SignSound ∧ FloatOps.float.DivSign ∧ FloatOps.float.PosDiv ∧
    (∀ x y, FloatOps.float.Comparable x → FloatOps.float.Comparable y → FloatOps.float.lt x y = false → FloatOps.float.lt y x = false → x = y) ∧
    (∀ i : Int, |i| ≤ 2 ^ 24 → FloatOps.float.ofInt i = .fin i) :=
  ⟨float_lawful, float_strict, float_lawful.signSound, float_divSign, float_posDiv,
    fun _ _ hx hy h1 h2 => Ext.eq_of_not_lt ((Ext.comparable_ne_nan rfl).1 hx) ((Ext.comparable_ne_nan rfl).1 hy) h1 h2,
    fun i h => by rw [float_ofInt, ofInt32_exact h]⟩

-- not every conversion is exact, and thirds are rounded
example : FloatOps.float.ofInt (2 ^ 24 + 1) = .fin (2 ^ 24) ∧ FloatOps.float.ofInt (2 ^ 24 + 3) = .fin (2 ^ 24 + 4) := by decide +kernel
example : FloatOps.float.div (FloatOps.float.ofInt 1) (FloatOps.float.ofInt 3) = .fin (11184811 / 33554432) := by decide +kernel
example : FloatOps.float.div (FloatOps.float.ofInt (-1)) (FloatOps.float.ofInt 0) = .inf true ∧
    FloatOps.float.div (FloatOps.float.ofInt 0) (FloatOps.float.ofInt 0) = .nan := by decide +kernel

/-- C139: rounding to double precision has the properties that the theorems on gaps and time limits assume. -/
theorem C139_double : RoundsDouble binary64 ∧ Rounds53 (roundTo 53 (-1074)) ∧
    ∀ x : Rat, |x| ≤ 2 ^ 1023 → binary64 x = .fin (roundTo 53 (-1074) x) := by
  refine ⟨roundsDouble, rounds53, fun x hx => ?_⟩
  have e : ∀ k : Nat, (2 : Rat) ^ (k : Int) = 2 ^ k := fun k => zpow_natCast 2 k
  have h := roundTo_abs_le (p := 53) (emin := -1074) (e := 1023) (by norm_num) (by norm_num) (by rw [show (1023 : Int) = (1023 : Nat) from rfl, e]; exact hx)
  unfold binary64 ieeeRound
  rw [if_pos]
  refine lt_of_le_of_lt h (zpow_lt_zpow_right₀ (by norm_num) (by norm_num))

example : binary64 (1 / 10) = .fin (3602879701896397 / 36028797018963968) := by decide +kernel
example : binary64 (2 ^ 53 + 1) = .fin (2 ^ 53) := by decide +kernel

/-- C139: the rounding of C134, whose exponents have no bounds, is that of `float` on the normal numbers, and on zero. -/
theorem C139_single (x : Rat) (h : x = 0 ∨ 2 ^ (-126 : Int) ≤ |x| ∧ |x| ≤ 2 ^ (127 : Int)) : single x = binary32 x := by
  rcases h with rfl | ⟨h1, h2⟩
  · rw [binary32_fin (by simp), f32_zero]
    rfl
  · have h0 : x ≠ 0 := by
      rintro rfl
      rw [abs_zero] at h1
      exact absurd h1 (not_le.2 (by positivity))
    have h3 : (-126 : Int) ≤ Int.log 2 |x| := by
      rw [← Int.zpow_le_iff_le_log (by norm_num) (abs_pos.2 h0)]
      exact_mod_cast h1
    have h4 : lastExponent 24 (-149) x = Int.log 2 |x| - 23 := by
      unfold lastExponent
      push_cast
      omega
    rw [binary32_fin h2, single, if_neg h0, f32, roundTo, h4]
    rfl

example := C139_single (1 / 3) (.inr (by norm_num [abs_of_pos]))

/-! ### Comparisons of ratios -/

/-- C139: the order of two ratios of numbers of at most 24 bits is never reversed, and it is kept if they differ by more than about `2 ^ -24` of their size. -/
theorem C139_order (a b c d : Int) (ha : |a| ≤ 2 ^ 24) (hb : 0 < b) (hb' : b ≤ 2 ^ 24) (hc : |c| ≤ 2 ^ 24) (hd : 0 < d) (hd' : d ≤ 2 ^ 24) :
    let x := FloatOps.float.div (FloatOps.float.ofInt a) (FloatOps.float.ofInt b)
    let y := FloatOps.float.div (FloatOps.float.ofInt c) (FloatOps.float.ofInt d)
    (FloatOps.float.lt x y = true → a * d < c * b) ∧ (|a| * d + |c| * b < 2 ^ 24 * (c * b - a * d) → FloatOps.float.lt x y = true) := by
  have hbq : (0 : Rat) < b := by exact_mod_cast hb
  have hdq : (0 : Rat) < d := by exact_mod_cast hd
  have hb2 : |b| ≤ 2 ^ 24 := by rwa [abs_of_pos hb]
  have hd2 : |d| ≤ 2 ^ 24 := by rwa [abs_of_pos hd]
  dsimp only
  rw [float_div_small (by omega) ha hb2, float_div_small (by omega) hc hd2]
  have hlt : FloatOps.float.lt (.fin (f32 (a / b))) (.fin (f32 (c / d))) = decide (f32 ((a : Rat) / b) < f32 (c / d)) := rfl
  rw [hlt, decide_eq_true_eq]
  constructor
  · intro h
    by_contra h'
    have : (c : Rat) / d ≤ a / b := by
      rw [div_le_div_iff₀ hdq hbq]
      exact_mod_cast not_lt.1 h'
    exact absurd (f32_mono this) (not_le.2 h)
  · intro h
    refine f32_lt (ratio_error (by omega) hb2) (ratio_error (by omega) hd2) ?_
    have h' : |(a : Rat)| * d + |(c : Rat)| * b < 2 ^ 24 * (c * b - a * d) := by exact_mod_cast h
    rw [abs_div, abs_div, abs_of_pos hbq, abs_of_pos hdq]
    have e1 : (|(a : Rat)| / b + |(c : Rat)| / d) / 2 ^ 24 = (|(a : Rat)| * d + |(c : Rat)| * b) / (2 ^ 24 * (b * d)) := by field_simp
    have e2 : (c : Rat) / d - a / b = (2 ^ 24 * (c * b - a * d)) / (2 ^ 24 * (b * d)) := by field_simp
    rw [e1, e2]
    exact div_lt_div_of_pos_right h' (by positivity)

example := C139_order 1000 2000 1001 2000 (by decide) (by decide) (by decide) (by decide) (by decide) (by decide)

/-- C139: for all `int`s, a ratio that does not compare greater than another is not much greater. -/
theorem C139_near (a b c d : Int) (ha : -2 ^ 31 ≤ a) (ha' : a < 2 ^ 31) (hb : 0 < b) (hb' : b < 2 ^ 31) (hc : -2 ^ 31 ≤ c) (hc' : c < 2 ^ 31) (hd : 0 < d)
    (hd' : d < 2 ^ 31)
    (h : FloatOps.float.lt (FloatOps.float.div (FloatOps.float.ofInt c) (FloatOps.float.ofInt d))
      (FloatOps.float.div (FloatOps.float.ofInt a) (FloatOps.float.ofInt b)) = false) : NotMuchAbove a b c d :=
  notMuchAbove_of ha ha' hb hb' hc hc' hd hd' h

-- the premise holds although the first ratio is the greater one
example : NotMuchAbove 2990 2989 2991 2990 ∧ (2990 : Int) * 2990 > 2991 * 2989 :=
  ⟨C139_near 2990 2989 2991 2990 (by decide) (by decide) (by decide) (by decide) (by decide) (by decide) (by decide) (by decide) (by decide +kernel), by decide⟩

/-! ### The heuristics -/

/-- C139: with small costs and prizes `pathExtensionUntilPrizeFeasible` returns in single precision the tour it would return without rounding.  `K` bounds the
number of edges of the paths that are compared. -/
theorem C139_until_exact (g : Graph) (hg : g.WF) (r : Nat) (t : List Nat) (ht : IsTour g r t) (cost prize : Nat → Int) (C P : Int) (hC : 1 ≤ C) (hP : 1 ≤ P)
    (hcost : ∀ e, 0 ≤ cost e ∧ cost e ≤ C) (hprize : ∀ v, 0 ≤ prize v ∧ prize v ≤ P) (quota step depth : Int) (hs : 1 ≤ step) (K : Nat) (h2 : 2 ≤ K)
    (hK : step ≤ K) (hd : depth ≤ 2 ∨ g.n + 2 ≤ K) (hsmall : K * C * ((K + 1) * P) < 2 ^ 23) :
    pathExtensionUntilPrizeFeasible FloatOps.float g t cost prize r quota step depth =
      pathExtensionUntilPrizeFeasible FloatOps.ieeeExact g t cost prize r quota step depth := by
  have hK' : (2 : Int) ≤ K := by exact_mod_cast h2
  exact pathExtensionUntil_agree (float_agree (by nlinarith) (by nlinarith) hsmall) float_lawful.signSound hg hs
    ⟨⟨C, hcost, le_refl _⟩, ⟨P, hprize, le_refl _⟩, h2, by omega, hd⟩ ht quota

/-- C139: the same of `extensionUntilPrizeFeasible`. -/
theorem C139_until_gain_exact (g : Graph) (t : List Nat) (cost prize : Nat → Int) (C P : Int) (hC : 1 ≤ C) (hP : 1 ≤ P)
    (hcost : ∀ e, 0 ≤ cost e ∧ cost e ≤ C) (hprize : ∀ v, |prize v| ≤ P) (quota : Int) (hsmall : P * (2 * C) < 2 ^ 23) :
    extensionUntilPrizeFeasible FloatOps.float g t cost prize quota = extensionUntilPrizeFeasible FloatOps.ieeeExact g t cost prize quota := by
  refine extensionUntil_agree (float_agree hP (by omega) hsmall) hprize (fun e e' e'' => ?_) quota t
  have h1 := hcost e
  have h2 := hcost e'
  have h3 := hcost e''
  rw [abs_le]
  omega

theorem gainPrize_range (v : Nat) : 0 ≤ gainPrize v ∧ gainPrize v ≤ 10 := by
  unfold gainPrize
  match v with
  | 0 | 1 | 2 | 3 | 4 => decide
  | _ + 5 => simp

theorem gainCost_range (e : Nat) : 0 ≤ gainCost e ∧ gainCost e ≤ 4 := by
  unfold gainCost
  match e with
  | 0 | 1 | 2 | 3 | 4 | 5 | 6 | 7 | 8 => decide
  | _ + 9 => simp

example : pathExtensionUntilPrizeFeasible FloatOps.float gainGraph [0, 1, 2, 0] gainCost gainPrize 0 15 1 3 =
    pathExtensionUntilPrizeFeasible FloatOps.ieeeExact gainGraph [0, 1, 2, 0] gainCost gainPrize 0 15 1 3 :=
  C139_until_exact gainGraph (by decide) 0 [0, 1, 2, 0] ⟨⟨[1, 2], rfl⟩, by decide, by decide⟩ gainCost gainPrize 4 10 (by decide) (by decide) gainCost_range
    gainPrize_range 15 1 3 (by decide) 7 (by decide) (by decide) (.inr (by decide)) (by decide)
example : extensionUntilPrizeFeasible FloatOps.float gainGraph [0, 1, 2, 0] gainCost gainPrize 15 = .ok [0, 3, 4, 1, 2, 0] := by
  rw [C139_until_gain_exact gainGraph [0, 1, 2, 0] gainCost gainPrize 4 10 (by decide) (by decide) gainCost_range
    (fun v => by have := gainPrize_range v; rw [abs_le]; omega) 15 (by decide)]
  decide +kernel

theorem pairCost_range {g : Graph} {cost : Nat → Int} {C : Int} (hC : 0 ≤ C) (h : ∀ e, 0 ≤ cost e ∧ cost e ≤ C) (u v : Nat) :
    0 ≤ pairCost g cost u v ∧ pairCost g cost u v ≤ C := by
  unfold pairCost
  split
  · exact h _
  · exact ⟨le_refl _, hC⟩

theorem extraCost_range {g : Graph} {cost : Nat → Int} (h : ∀ e, 0 ≤ cost e ∧ cost e < 2 ^ 30) (v a b : Nat) :
    -2 ^ 31 ≤ extraCost g cost v a b ∧ extraCost g cost v a b < 2 ^ 31 := by
  have h' : ∀ e, 0 ≤ cost e ∧ cost e ≤ 2 ^ 30 - 1 := fun e => by have := h e; omega
  have h1 := pairCost_range (g := g) (by norm_num) h' a v
  have h2 := pairCost_range (g := g) (by norm_num) h' v b
  have h3 := pairCost_range (g := g) (by norm_num) h' a b
  unfold extraCost
  omega

/-- C139: whatever the `int`s, each vertex that `extensionUnitaryLoss` inserts has a loss that is at most slightly above the least one. -/
theorem C139_loss_near (g : Graph) (hg : g.WF) (r : Nat) (t : List Nat) (ht : IsTour g r t) (hlen : 3 ≤ t.length) (cost prize : Nat → Int)
    (hcost : ∀ e, 0 ≤ cost e ∧ cost e < 2 ^ 30) (hprize : ∀ v, prize v < 2 ^ 31) :
    ∃ t', extensionUnitaryLoss FloatOps.float g t cost prize r = .ok t' ∧ GainSteps g (fun s v a b => NearlyLeastLoss g cost prize s v a b) t t' := by
  obtain ⟨t', os, h1, -, h2, -⟩ := C90_least_loss FloatOps.float float_lawful g hg r t ht hlen cost prize
  refine ⟨t', h1, h2.mono fun s v a b ⟨h, _⟩ => ⟨h.insertable, h.positive, fun v' a' b' hi hp => ?_⟩⟩
  have r1 := extraCost_range (g := g) hcost v a b
  have r2 := extraCost_range (g := g) hcost v' a' b'
  exact C139_near _ _ _ _ r1.1 r1.2 h.positive (hprize v) r2.1 r2.2 hp (hprize v') (h.least v' a' b' hi hp)

example := C139_loss_near gainGraph (by decide) 0 [0, 1, 2, 0] ⟨⟨[1, 2], rfl⟩, by decide, by decide⟩ (by decide) gainCost gainPrize
  (fun e => by have := gainCost_range e; omega) (fun v => by have := gainPrize_range v; omega)
example : extensionUnitaryLoss FloatOps.float gainGraph [0, 1, 2, 0] gainCost gainPrize 0 ≠ .ok [0, 1, 2, 0] := by decide +kernel

theorem nearlyBest_of_best {g : Graph} {cost prize : Nat → Int} (hcost : ∀ e, 0 ≤ cost e ∧ cost e < 2 ^ 30) (hprize : ∀ v, 0 ≤ prize v ∧ prize v < 2 ^ 31)
    {s : List Nat} {v a b : Nat} (h : BestInsertion FloatOps.float g cost prize s v a b) : NearlyBestInsertion g cost prize s v a b := by
  have r1 := extraCost_range (g := g) hcost v a b
  have hpos : 0 < prize v := by
    rcases lt_or_eq_of_le (hprize v).1 with h' | h'
    · exact h'
    · have := h.positive
      rw [gainBetween, ← h', float_divSign.zeroDiv] at this
      simp at this
  have hc : 0 ≤ extraCost g cost v a b := by
    by_contra hc
    have h1 := h.positive
    have h2 := float_divSign.negDiv _ _ (hprize v).1 (not_le.1 hc)
    unfold extraCost at h2
    rw [gainBetween, h2] at h1
    simp at h1
  refine ⟨h.insertable, hpos, hc, fun v' a' b' hi hp hc' => ?_⟩
  have r2 := extraCost_range (g := g) hcost v' a' b'
  have hb := h.best v' a' b' hi
  change FloatOps.float.lt (FloatOps.float.div (FloatOps.float.ofInt (prize v)) (FloatOps.float.ofInt (extraCost g cost v a b)))
    (FloatOps.float.div (FloatOps.float.ofInt (prize v')) (FloatOps.float.ofInt (extraCost g cost v' a' b'))) = false at hb
  have hv := hprize v
  have hv' := hprize v'
  rcases lt_or_eq_of_le hc with hc0 | hc0
  · rcases lt_or_eq_of_le hc' with hc0' | hc0'
    · exact C139_near _ _ _ _ (by omega) hv'.2 hc0' r2.2 (by omega) hv.2 hc0 r1.2 hb
    · -- the other gain would be infinite and this one finite
      exfalso
      rw [← hc0', float_div_zero, if_neg (by omega), decide_eq_false (by omega), float_div (by omega)] at hb
      exact absurd hb (by simp [FloatOps.float, FloatOps.ieee, Ext.lt])
  · unfold NotMuchAbove
    rw [← hc0]
    have : 0 ≤ prize v * extraCost g cost v' a' b' := mul_nonneg hv.1 hc'
    rw [abs_of_nonneg hv.1, abs_of_nonneg hv'.1]
    nlinarith

/-- C139: the same of the two heuristics that insert the vertex with the greatest gain. -/
theorem C139_gain_near (g : Graph) (t : List Nat) (hne : t ≠ []) (hlt : ∀ x ∈ t, x < g.n) (hw : IsWalk g t) (cost prize : Nat → Int)
    (hcost : ∀ e, 0 ≤ cost e ∧ cost e < 2 ^ 30) (hprize : ∀ v, 0 ≤ prize v ∧ prize v < 2 ^ 31) (quota : Int) :
    (∃ t', extensionUntilPrizeFeasible FloatOps.float g t cost prize quota = .ok t' ∧
      GainSteps g (fun s v a b => NearlyBestInsertion g cost prize s v a b) t t') ∧
    (∃ t', extensionUnitaryGain FloatOps.float g t cost prize = .ok t' ∧ GainSteps g (fun s v a b => NearlyBestInsertion g cost prize s v a b) t t') := by
  obtain ⟨t1, h1, -, h2⟩ := C17_until_feasible_only_inserts FloatOps.float float_strict g cost prize quota t hne hlt hw
  obtain ⟨t2, h3, h4, -⟩ := C48_gain_best_insertions FloatOps.float float_strict g cost prize t hne hlt hw
  exact ⟨⟨t1, h1, h2.mono fun s v a b h => nearlyBest_of_best hcost hprize h.1⟩, ⟨t2, h3, h4.mono fun s v a b h => nearlyBest_of_best hcost hprize h.1⟩⟩

example := C139_gain_near gainGraph [0, 1, 2, 0] (by decide) (by decide) (by decide) gainCost gainPrize (fun e => by have := gainCost_range e; omega)
  (fun v => by have := gainPrize_range v; omega) 15

/-! ### Where rounding changes the result -/

/-- A triangle and two vertices that are both joined to 0 and 1. -/
def nearTieGraph : Graph := ⟨5, [(0, 1), (1, 2), (2, 0), (3, 0), (3, 1), (4, 0), (4, 1)]⟩
/-- The extra costs of the two vertices are 2990 and 2991. -/
def nearTieCost (e : Nat) : Int := [10, 10, 10, 1500, 1500, 1500, 1501].getD e 0
/-- Their prizes are 2989 and 2990. -/
def nearTiePrize (v : Nat) : Int := [0, 0, 0, 2989, 2990].getD v 0

/-- C139: numbers of four digits are enough for two different ratios to become equal.  The heuristic then keeps the first, which has the greater loss, and
misses a quota that it would reach without rounding. -/
theorem C139_tie : ∃ (g : Graph) (cost prize : Nat → Int) (t t' : List Nat) (quota : Int), g.WF ∧ IsTour g 0 t ∧
    (∀ e, 0 ≤ cost e ∧ cost e ≤ 1501) ∧ (∀ v, 0 ≤ prize v ∧ prize v ≤ 2990) ∧
    pathExtensionUntilPrizeFeasible FloatOps.float g t cost prize 0 quota 1 2 = .ok t' ∧ tourPrize prize t' < quota ∧
    ∃ s, pathExtensionUntilPrizeFeasible FloatOps.ieeeExact g t cost prize 0 quota 1 2 = .ok s ∧ quota ≤ tourPrize prize s := by
  refine ⟨nearTieGraph, nearTieCost, nearTiePrize, [0, 1, 2, 0], [0, 3, 1, 2, 0], 2990, by decide, ⟨⟨[1, 2], rfl⟩, by decide, by decide⟩, ?_, ?_, by decide +kernel, by decide,
    [0, 4, 1, 2, 0], by decide +kernel, by decide⟩
  · intro e
    unfold nearTieCost
    match e with
    | 0 | 1 | 2 | 3 | 4 | 5 | 6 => decide
    | _ + 7 => simp
  · intro v
    unfold nearTiePrize
    match v with
    | 0 | 1 | 2 | 3 | 4 => decide
    | _ + 5 => simp

/-- A triangle and three vertices that are all joined to 0 and 1. -/
def meanGraph : Graph := ⟨6, [(0, 1), (1, 2), (2, 0), (3, 0), (3, 1), (4, 0), (4, 1), (5, 0), (5, 1)]⟩
/-- The extra cost of each is 7. -/
def meanCost (e : Nat) : Int := [1, 1, 1, 4, 4, 4, 4, 4, 4].getD e 0
/-- The prize of each is 5. -/
def meanPrize (v : Nat) : Int := [0, 0, 0, 5, 5, 5].getD v 0

/-- C139: no bound on the numbers makes the heuristics that compare with an average exact.  Three equal gains are not above their average, but the rounded average
is below them, so `extensionUnitaryGain` inserts a vertex. -/
theorem C139_average : ∃ (g : Graph) (cost prize : Nat → Int) (t t' : List Nat), g.WF ∧ IsTour g 0 t ∧ (∀ e, 0 ≤ cost e ∧ cost e ≤ 4) ∧
    (∀ v, 0 ≤ prize v ∧ prize v ≤ 5) ∧ (∀ v a b, Insertable g t v a b → prize v = 5 ∧ extraCost g cost v a b = 7) ∧ t' ≠ t ∧
    extensionUnitaryGain FloatOps.float g t cost prize = .ok t' ∧ extensionUnitaryGain FloatOps.ieeeExact g t cost prize = .ok t := by
  refine ⟨meanGraph, meanCost, meanPrize, [0, 1, 2, 0], [0, 3, 1, 2, 0], by decide, ⟨⟨[1, 2], rfl⟩, by decide, by decide⟩, ?_, ?_, ?_, by decide, by decide +kernel,
    by decide +kernel⟩
  · intro e
    unfold meanCost
    match e with
    | 0 | 1 | 2 | 3 | 4 | 5 | 6 | 7 | 8 => decide
    | _ + 9 => simp
  · intro v
    unfold meanPrize
    match v with
    | 0 | 1 | 2 | 3 | 4 | 5 => decide
    | _ + 6 => simp
  · rintro v a b ⟨hp, hv, hn, hl, hr⟩
    have key : ∀ v < 6, ∀ p ∈ consec [0, 1, 2, 0], v ∉ [0, 1, 2, 0] → Adj meanGraph p.1 v → Adj meanGraph v p.2 →
        meanPrize v = 5 ∧ extraCost meanGraph meanCost v p.1 p.2 = 7 := by decide +kernel
    exact key v hn (a, b) hp hv hl hr

end Pctsp
