import Mathlib.Tactic.FieldSimp
import Mathlib.Tactic.Positivity
import Verif.Lemmas.Units
import Verif.Model.Binding

/-!
# Helper lemmas for C134: rounding
-/

namespace Pctsp

theorem Ext.scale_scale (a b : Rat) (x : Ext) : (x.scale a).scale b = x.scale (b * a) := by
  cases x <;> simp [Ext.scale, mul_assoc]

theorem Ext.scale_one (x : Ext) : x.scale 1 = x := by cases x <;> simp [Ext.scale]

theorem RoundsAlike.mul {rnd : Rat → Ext} {a b : Rat} (ha : RoundsAlike rnd a) (hb : RoundsAlike rnd b) : RoundsAlike rnd (a * b) := fun x => by
  rw [mul_assoc, ha, hb, Ext.scale_scale]

theorem RoundsAlike.inv {rnd : Rat → Ext} {a : Rat} (ha : RoundsAlike rnd a) (h0 : a ≠ 0) : RoundsAlike rnd a⁻¹ := fun x => by
  have := ha (a⁻¹ * x)
  rw [mul_inv_cancel_left₀ h0] at this
  rw [this, Ext.scale_scale, inv_mul_cancel₀ h0, Ext.scale_one]

theorem RoundsAlike.pow {rnd : Rat → Ext} {a : Rat} (ha : RoundsAlike rnd a) (n : Nat) : RoundsAlike rnd (a ^ n) := by
  induction n with
  | zero => intro x; simp [Ext.scale_one]
  | succ n ih => rw [pow_succ]; exact ih.mul ha

theorem Ext.lt_scale {c : Rat} (hc : 0 < c) (x y : Ext) : Ext.lt (x.scale c) (y.scale c) = Ext.lt x y := by
  cases x with
  | nan => cases y <;> rfl
  | inf s => cases y <;> cases s <;> rfl
  | fin p =>
    cases y with
    | nan => rfl
    | inf t => cases t <;> rfl
    | fin q => simp [Ext.scale, Ext.lt, hc]

theorem Ext.lt_zero_scale {c : Rat} (hc : 0 < c) (y : Ext) : Ext.lt (.fin 0) (y.scale c) = Ext.lt (.fin 0) y := by
  have := Ext.lt_scale hc (.fin 0) y
  rwa [show (Ext.fin 0).scale c = .fin 0 by simp [Ext.scale]] at this

theorem Ext.div_scale {rnd : Rat → Ext} {a b : Rat} (ha : 0 < a) (hb : 0 < b) (hra : RoundsAlike rnd a) (hrb : RoundsAlike rnd b) (x y : Ext) :
    Ext.div rnd (x.scale a) (y.scale b) = (Ext.div rnd x y).scale (a / b) := by
  cases x with
  | nan => cases y <;> rfl
  | inf s =>
    cases y with
    | nan => rfl
    | inf t => rfl
    | fin q =>
      have : b * q < 0 ↔ q < 0 := by constructor <;> intro h <;> nlinarith
      simp [Ext.div, Ext.scale, this]
  | fin p =>
    cases y with
    | nan => rfl
    | inf t => simp [Ext.div, Ext.scale]
    | fin q =>
      have h1 : a * p < 0 ↔ p < 0 := by constructor <;> intro h <;> nlinarith
      have h2 : b * q = 0 ↔ q = 0 := by simp [hb.ne']
      have h3 : a * p = 0 ↔ p = 0 := by simp [ha.ne']
      have h4 : a * p / (b * q) = (a * b⁻¹) * (p / q) := by
        rw [mul_div_mul_comm, div_eq_mul_inv a b]
      have h5 := (hra.mul (hrb.inv hb.ne')) (p / q)
      rw [← h4, ← div_eq_mul_inv a b] at h5
      change (if b * q = 0 then _ else rnd (a * p / (b * q))) = Ext.scale (a / b) (if q = 0 then _ else rnd (p / q))
      simp only [h1, h2, h3, h5]
      split
      · split <;> rfl
      · rfl

theorem Ext.div_scale_left {rnd : Rat → Ext} {a : Rat} (ha : 0 < a) (hra : RoundsAlike rnd a) (x y : Ext) :
    Ext.div rnd (x.scale a) y = (Ext.div rnd x y).scale a := by
  have h := Ext.div_scale ha one_pos hra (b := 1) (by intro x; simp [Ext.scale_one]) x y
  rwa [Ext.scale_one, div_one] at h

theorem Ext.add_scale {rnd : Rat → Ext} {a : Rat} (hra : RoundsAlike rnd a) (x y : Ext) : Ext.add rnd (x.scale a) (y.scale a) = (Ext.add rnd x y).scale a := by
  cases x <;> cases y <;> try rfl
  · simp only [Ext.add, Ext.scale]
    split <;> rfl
  · change rnd (_ * _ + _ * _) = Ext.scale a (rnd _)
    rw [← mul_add, hra]

theorem rescaled_ieee {rnd : Rat → Ext} {k m : Int} (hk : 0 < k) (hm : 0 < m) (hrk : RoundsAlike rnd k) (hrm : RoundsAlike rnd m) :
    Rescaled (FloatOps.ieee rnd) k m (Ext.scale (k / m : Rat)) := by
  have hk' : (0 : Rat) < k := Int.cast_pos.2 hk
  have hm' : (0 : Rat) < m := Int.cast_pos.2 hm
  have hc : (0 : Rat) < k / m := by positivity
  have hrc : RoundsAlike rnd (k / m : Rat) := by rw [div_eq_mul_inv]; exact hrk.mul (hrm.inv hm'.ne')
  refine ⟨?_, ?_, ?_, ?_, ?_, ?_⟩
  · simp [FloatOps.ieee, Ext.scale]
  · intro a b
    change Ext.div rnd (rnd ((k * a : Int) : Rat)) (rnd ((m * b : Int) : Rat)) = _
    rw [Int.cast_mul, Int.cast_mul, hrk, hrm]
    exact Ext.div_scale hk' hm' hrk hrm _ _
  · exact fun x y => Ext.add_scale hrc x y
  · exact fun x n => Ext.div_scale_left hc hrc _ _
  · exact fun x y => Ext.lt_scale hc x y
  · intro b
    change Ext.lt (.fin 0) (rnd ((m * b : Int) : Rat)) = Ext.lt (.fin 0) (rnd (b : Rat))
    rw [Int.cast_mul, hrm, Ext.lt_zero_scale hm']

/-! ### Single precision -/

theorem lastDigit_double {x : Rat} (hx : x ≠ 0) : lastDigit (2 * x) = 2 * lastDigit x := by
  have h0 : (0 : Rat) < |x| := abs_pos.2 hx
  have h2 : |2 * x| = 2 * |x| := by rw [abs_mul]; norm_num
  have h02 : (0 : Rat) < 2 * |x| := by positivity
  have hlog : Int.log 2 (2 * |x|) = Int.log 2 |x| + 1 := by
    have two : (1 : Nat) < 2 := by norm_num
    apply le_antisymm
    · rw [← Int.lt_add_one_iff, ← Int.lt_zpow_iff_log_lt two h02]
      have := (Int.lt_zpow_iff_log_lt two h0).2 (lt_add_one (Int.log 2 |x|))
      rw [zpow_add_one₀ (by norm_num)]
      push_cast at this ⊢
      linarith
    · rw [← Int.zpow_le_iff_le_log two h02]
      have := (Int.zpow_le_iff_le_log two h0).2 (le_refl (Int.log 2 |x|))
      rw [zpow_add_one₀ (by norm_num)]
      push_cast at this ⊢
      linarith
  unfold lastDigit
  rw [h2, hlog, show Int.log 2 |x| + 1 - 23 = (Int.log 2 |x| - 23) + 1 by ring, zpow_add_one₀ (by norm_num), mul_comm]

theorem single_two : RoundsAlike single 2 := by
  intro x
  unfold single
  by_cases hx : x = 0
  · simp [hx, Ext.scale]
  · have h2 : (2 : Rat) * x ≠ 0 := by simp [hx]
    rw [if_neg hx, if_neg h2, lastDigit_double hx, mul_div_mul_left _ _ (by norm_num : (2 : Rat) ≠ 0)]
    simp only [Ext.scale]
    congr 1
    ring

/-! ### The maps of the bindings -/

theorem upd_inUnit (k : Int) (f : Nat → Int) (i : Nat) (c : Int) : upd (inUnit k f) i (k * c) = inUnit k (upd f i c) := by
  funext j
  simp only [inUnit, upd]
  split <;> rfl

variable {α : Type} [DecidableEq α]

theorem fillCostMap_units (k : Int) (g : Graph) (b : Bimap α) (costs : List ((α × α) × Int)) (f : Nat → Int) :
    fillCostMap g b (entriesInUnit k costs) (inUnit k f) = inUnit k <$> fillCostMap g b costs f := by
  induction costs generalizing f with
  | nil => rfl
  | cons x costs ih =>
    obtain ⟨p, c⟩ := x
    refine bind_id_eq rfl fun s => bind_id_eq rfl fun t => bind_id_eq rfl fun e => ?_
    cases e with
    | none => rfl
    | some i =>
      dsimp only
      rw [upd_inUnit]
      exact ih _

theorem fillVertexMap_units (k : Int) (b : Bimap α) (prizes : List (α × Int)) (f : Nat → Int) :
    fillVertexMap b (entriesInUnit k prizes) (inUnit k f) = inUnit k <$> fillVertexMap b prizes f := by
  induction prizes generalizing f with
  | nil => rfl
  | cons x prizes ih =>
    refine bind_id_eq rfl fun v => ?_
    rw [upd_inUnit]
    exact ih _

/-- What a binding builds, in other units. -/
def Renamed.inUnits (k m : Int) (p : Renamed α) : Renamed α := { p with cost := inUnit k p.cost, prize := inUnit m p.prize }

theorem inUnit_zero (k : Int) : inUnit k (fun _ => 0) = fun _ => 0 := by
  funext i
  exact mul_zero k

theorem prepare_units (k m : Int) (es : List (α × α)) (tour : List α) (costs : List ((α × α) × Int)) (prizes : List (α × Int)) :
    prepare es tour (entriesInUnit k costs) (entriesInUnit m prizes) = Renamed.inUnits k m <$> prepare es tour costs prizes := by
  unfold prepare
  refine bind_id_eq rfl fun t => ?_
  have h1 := fillCostMap_units k (graphOf (renameEdges [] es).1) (renameEdges [] es).2 costs (fun _ => 0)
  have h2 := fillVertexMap_units m (renameEdges [] es).2 prizes (fun _ => 0)
  rw [inUnit_zero] at h1 h2
  exact bind_map_eq h1 fun c => bind_map_eq h2 fun p => rfl

theorem prepareRoot_units (k m : Int) (es : List (α × α)) (tour : List α) (costs : List ((α × α) × Int)) (prizes : List (α × Int)) (root : α) :
    prepareRoot es tour (entriesInUnit k costs) (entriesInUnit m prizes) root = (fun x => (x.1.inUnits k m, x.2)) <$> prepareRoot es tour costs prizes root := by
  unfold prepareRoot
  exact bind_id_eq rfl fun r => bind_map_eq (prepare_units k m es tour costs prizes) fun p => rfl

end Pctsp
