import Verif.Model.Gain
import Verif.Lemmas.MachineLoops

/-! Helper lemmas: two arithmetics that compare the ratios of small numbers in the same way lead the heuristics to the same tour. -/

namespace Pctsp

variable {F F' : Type}

/-- Two outcomes of the same kind with related values. -/
def ResRel {α β : Type} (R : α → β → Prop) : Res α → Res β → Prop
  | .ok a, .ok b => R a b
  | .throw e, .throw e' => e = e'
  | .ub w, .ub w' => w = w'
  | _, _ => False

theorem ResRel.bind {α β γ δ : Type} {R : α → β → Prop} {S : γ → δ → Prop} {x : Res α} {y : Res β} {f : α → Res γ} {h : β → Res δ} (hxy : ResRel R x y)
    (hf : ∀ a b, x = .ok a → R a b → ResRel S (f a) (h b)) : ResRel S (x >>= f) (y >>= h) := by
  cases x <;> cases y <;> simp only [ResRel, Res.ok_bind, Res.throw_bind, Res.ub_bind] at *
  · exact hf _ _ rfl hxy
  · exact hxy
  · exact hxy

theorem ResRel.bind_same {α γ δ : Type} {S : γ → δ → Prop} (x : Res α) {f : α → Res γ} {h : α → Res δ} (hf : ∀ a, x = .ok a → ResRel S (f a) (h a)) :
    ResRel S (x >>= f) (x >>= h) := by
  cases x with
  | ok a => exact hf a rfl
  | throw e => rfl
  | ub w => rfl

theorem ResRel.eq {α : Type} {x y : Res α} (h : ResRel Eq x y) : x = y := by
  cases x <;> cases y <;> simp only [ResRel] at h <;> subst h <;> rfl

theorem ResRel.of_eq {α : Type} {x y : Res α} (h : x = y) : ResRel Eq x y := by
  subst h
  cases x <;> rfl

/-- The ratios of numbers up to `A` and `B` compare in the same way in both arithmetics. -/
structure Agree (O : FloatOps F) (O' : FloatOps F') (A B : Int) : Prop where
  lt : ∀ a b c d : Int, |a| ≤ A → |b| ≤ B → |c| ≤ A → |d| ≤ B →
    O.lt (O.div (O.ofInt a) (O.ofInt b)) (O.div (O.ofInt c) (O.ofInt d)) = O'.lt (O'.div (O'.ofInt a) (O'.ofInt b)) (O'.div (O'.ofInt c) (O'.ofInt d))
  zero : O.zero = O.div (O.ofInt 0) (O.ofInt 1)
  zero' : O'.zero = O'.div (O'.ofInt 0) (O'.ofInt 1)
  pos : ∀ d : Int, |d| ≤ B → O.lt O.zero (O.ofInt d) = O'.lt O'.zero (O'.ofInt d)
  num : 0 ≤ A
  den : 1 ≤ B

/-- The same ratio in both arithmetics. -/
inductive SameRatio (O : FloatOps F) (O' : FloatOps F') (A B : Int) : F → F' → Prop
  | mk (a b : Int) (ha : |a| ≤ A) (hb : |b| ≤ B) : SameRatio O O' A B (O.div (O.ofInt a) (O.ofInt b)) (O'.div (O'.ofInt a) (O'.ofInt b))

section
variable {O : FloatOps F} {O' : FloatOps F'} {A B : Int}

theorem Agree.ratio_zero (h : Agree O O' A B) : SameRatio O O' A B O.zero O'.zero := by
  rw [h.zero, h.zero']
  exact .mk 0 1 (by simpa using h.num) (abs_le.2 ⟨by have := h.den; omega, h.den⟩)

theorem Agree.ratio_lt (h : Agree O O' A B) {x y : F} {x' y' : F'} (hx : SameRatio O O' A B x x') (hy : SameRatio O O' A B y y') :
    O.lt x y = O'.lt x' y' := by
  obtain ⟨a, b, ha, hb⟩ := hx
  obtain ⟨c, d, hc, hd⟩ := hy
  exact h.lt a b c d ha hb hc hd

/-! ### Path extension -/

/-- The states of the loops that look for the smallest value. -/
def SameBest (O : FloatOps F) (O' : FloatOps F') (A B : Int) (st : ArgminState F) (st' : ArgminState F') : Prop :=
  st.found = st'.found ∧ SameRatio O O' A B st.value st'.value ∧ st.index = st'.index

theorem chooseLoop_agree (h : Agree O O' A B) {g : Graph} {cost prize : Nat → Int} {internal : List Nat} (i : Int) {l : List (List Nat)}
    (hP : ∀ p ∈ l, |totalPrize prize p - totalPrize prize internal| ≤ B)
    (hC : ∀ p ∈ l, ∀ c c', totalCost g cost p = .ok c → totalCost g cost internal = .ok c' → |c - c'| ≤ A)
    {st : ArgminState F} {st' : ArgminState F'} (hst : SameBest O O' A B st st') :
    ResRel (SameBest O O' A B) (chooseLoop O g cost prize internal i l st) (chooseLoop O' g cost prize internal i l st') := by
  induction l generalizing i st st' with
  | nil => exact hst
  | cons p l ih =>
    have ih := fun i st st' => ih i (st := st) (st' := st') (fun q hq => hP q (List.mem_cons_of_mem _ hq)) (fun q hq => hC q (List.mem_cons_of_mem _ hq))
    rw [chooseLoop, chooseLoop]
    dsimp only
    rw [h.pos _ (hP p List.mem_cons_self)]
    split
    · refine ResRel.bind_same _ fun c hc => ResRel.bind_same _ fun c' hc' => ih _ _ _ ?_
      have hr : SameRatio O O' A B (unitaryLoss O (totalPrize prize p) (totalPrize prize internal) c c')
          (unitaryLoss O' (totalPrize prize p) (totalPrize prize internal) c c') :=
        .mk _ _ (hC p List.mem_cons_self c c' hc hc') (hP p List.mem_cons_self)
      rw [h.ratio_lt hr hst.2.1, hst.1]
      split
      · exact ⟨rfl, hr, rfl⟩
      · exact hst
    · exact ih _ _ _ hst

theorem smallestLossLoop_agree (h : Agree O O' A B) (i : Int) {l : List (F × Bool)} {l' : List (F' × Bool)}
    (hl : List.Forall₂ (fun x x' => SameRatio O O' A B x.1 x'.1 ∧ x.2 = x'.2) l l') {st : ArgminState F} {st' : ArgminState F'}
    (hst : SameBest O O' A B st st') : SameBest O O' A B (smallestLossLoop O i l st) (smallestLossLoop O' i l' st') := by
  induction hl generalizing i st st' with
  | nil => exact hst
  | @cons x x' l l' hx hl ih =>
    obtain ⟨x, b⟩ := x
    obtain ⟨x', b'⟩ := x'
    obtain ⟨hx, rfl⟩ := hx
    rw [smallestLossLoop, smallestLossLoop]
    refine ih _ ?_
    rw [h.ratio_lt hx hst.2.1, hst.1]
    split
    · exact ⟨rfl, hx, rfl⟩
    · exact hst

/-- The entries of the table of extensions. -/
def SameEntry (O : FloatOps F) (O' : FloatOps F') (A B : Int) (e : ExtEntry F) (e' : ExtEntry F') : Prop :=
  SameRatio O O' A B e.loss e'.loss ∧ e.feasible = e'.feasible ∧ e.path = e'.path

theorem subpath_length_step {α : Type} {cycle : List α} {i step : Nat} (hi : i < cycle.length - 1) (hs : step < cycle.length - 1) {l : List α}
    (h : getSubpathOfCycle cycle i ((i + step) % (cycle.length - 1)) = .ok l) : l.length = step + 1 := by
  rw [getSubpathOfCycle] at h
  have hj : (i + step) % (cycle.length - 1) = if i + step < cycle.length - 1 then i + step else i + step - (cycle.length - 1) := by
    split
    · rename_i h; exact Nat.mod_eq_of_lt h
    · rename_i h
      rw [Nat.mod_eq_sub_mod (by omega), Nat.mod_eq_of_lt (by omega)]
  revert h hj
  generalize (i + step) % (cycle.length - 1) = j
  intro h hj
  have hle : (if ((j : Int) - i + 1) ≤ 0 then (cycle.length : Int) - i + j else (j : Int) - i + 1) = step + 1 := by
    split at hj <;> split <;> omega
  rw [hle] at h
  have h1 : ¬ ((step : Int) + 1 < 0) := by omega
  have h2 : ¬ i > cycle.length := by omega
  simp only [h1, h2, if_false] at h
  have := subpathLoop_length _ _ _ h
  omega

theorem sum_range {f : Nat → Int} {M : Int} (hf : ∀ v, 0 ≤ f v ∧ f v ≤ M) (l : List Nat) (a : Int) :
    a ≤ l.foldl (fun c v => c + f v) a ∧ l.foldl (fun c v => c + f v) a ≤ a + l.length * M := by
  induction l generalizing a with
  | nil => simp
  | cons x l ih =>
    have h1 := ih (a + f x)
    have h2 := hf x
    simp only [List.foldl_cons, List.length_cons]
    push_cast
    constructor
    · omega
    · have : ((l.length : Int) + 1) * M = l.length * M + M := by ring
      omega

theorem totalPrize_range {prize : Nat → Int} {P : Int} (hf : ∀ v, 0 ≤ prize v ∧ prize v ≤ P) {l : List Nat} {K : Nat} (hl : l.length ≤ K) :
    0 ≤ totalPrize prize l ∧ totalPrize prize l ≤ K * P := by
  have := sum_range hf l 0
  have hP : 0 ≤ P := (hf 0).1.trans (hf 0).2
  have h2 : (l.length : Int) * P ≤ K * P := mul_le_mul_of_nonneg_right (by exact_mod_cast hl) hP
  unfold totalPrize
  constructor <;> omega

theorem totalCost_range {g : Graph} {cost : Nat → Int} {C : Int} (hf : ∀ e, 0 ≤ cost e ∧ cost e ≤ C) {l : List Nat} {K : Nat} (hl : l.length ≤ K + 1) {c : Int}
    (hc : totalCost g cost l = .ok c) : 0 ≤ c ∧ c ≤ K * C := by
  rw [totalCost] at hc
  obtain ⟨es, he, hc⟩ := Res.bind_eq_ok.1 hc
  obtain rfl : totalCostEdges cost es = c := by simpa using hc
  have h0 := getEdgesInWalk_length he
  have h1 := sum_range hf es 0
  have hC : 0 ≤ C := (hf 0).1.trans (hf 0).2
  have h2 : (es.length : Int) * C ≤ K * C := mul_le_mul_of_nonneg_right (by omega) hC
  unfold totalCostEdges
  constructor <;> omega

theorem externalCandidates_length {g : Graph} {prize : Nat → Int} {tour internal : List Nat} {root : Nat} {depth : Int} {vi vj : Nat} {K : Nat} (h3 : 2 ≤ K)
    (hK : depth ≤ 2 ∨ g.n + 2 ≤ K) {cs : List (List Nat)} (hc : externalCandidates g prize tour root depth vi vj internal = .ok cs) :
    ∀ p ∈ cs, p.length ≤ K + 1 := by
  rw [externalCandidates] at hc
  obtain ⟨b, -, hc⟩ := Res.bind_eq_ok.1 hc
  split at hc
  · obtain ⟨e, -, hc⟩ := Res.bind_eq_ok.1 hc
    cases e with
    | none => cases hc; simp
    | some e =>
      obtain ⟨e, -, hc⟩ := Res.bind_eq_ok.1 hc
      cases e with
      | none => cases hc; simp
      | some e => cases hc; simpa using h3
  · split at hc
    · obtain ⟨nbrs, -, hc⟩ := Res.bind_eq_ok.1 hc
      cases hc
      intro p hp
      obtain ⟨u, -, rfl⟩ := List.mem_map.1 hp
      simpa using h3
    · split at hc
      · rename_i hd
        obtain ⟨mp, -, hc⟩ := Res.bind_eq_ok.1 hc
        obtain ⟨nbrs, -, hc⟩ := Res.bind_eq_ok.1 hc
        cases hc
        intro p hp
        unfold bfsCandidates at hp
        obtain ⟨v, -, hv⟩ := List.mem_filterMap.1 hp
        split at hv
        · dsimp only at hv
          split at hv
          · cases hv
            have := pathInTree_length mp.2 g.n v
            simp only [List.length_append, List.length_cons, List.length_nil]
            omega
          · cases hv
        · cases hv
      · cases hc; simp

/-- Costs and prizes in ranges, and paths of at most `K` edges. -/
structure SmallRatios (g : Graph) (cost prize : Nat → Int) (step : Nat) (depth : Int) (K : Nat) (A B : Int) : Prop where
  cost : ∃ C, (∀ e, 0 ≤ cost e ∧ cost e ≤ C) ∧ K * C ≤ A
  prize : ∃ P, (∀ v, 0 ≤ prize v ∧ prize v ≤ P) ∧ (K + 1) * P ≤ B
  two : 2 ≤ K
  step : step ≤ K
  depth : depth ≤ 2 ∨ g.n + 2 ≤ K

theorem abs_sub_le_of_range {x y M : Int} (hx : 0 ≤ x ∧ x ≤ M) (hy : 0 ≤ y ∧ y ≤ M) : |x - y| ≤ M := by
  rw [abs_le]; omega

theorem extensionEntry_agree (h : Agree O O' A B) {g : Graph} {cost prize : Nat → Int} {step : Nat} {depth : Int} {K : Nat}
    (hv : SmallRatios g cost prize step depth K A B) {tour : List Nat} (root i : Nat) (hi : i < tour.length - 1) (hs : step < tour.length - 1) :
    ResRel (SameEntry O O' A B) (extensionEntry O g tour cost prize root step depth i) (extensionEntry O' g tour cost prize root step depth i) := by
  rw [extensionEntry, extensionEntry]
  dsimp only
  split
  · rename_i vi vj _ _
    refine ResRel.bind_same _ fun internal hint => ResRel.bind_same _ fun cands hc => ?_
    have hl := subpath_length_step hi hs hint
    have hcl := externalCandidates_length hv.two hv.depth hc
    have hst := hv.step
    obtain ⟨C, hC, hCA⟩ := hv.cost
    obtain ⟨P, hP, hPB⟩ := hv.prize
    refine ResRel.bind (R := fun x x' => x.1 = x'.1 ∧ SameRatio O O' A B x.2 x'.2) ?_ ?_
    · rw [chooseExtensionPath, chooseExtensionPath]
      refine ResRel.bind (R := SameBest O O' A B) (chooseLoop_agree h _ ?_ ?_ ⟨rfl, h.ratio_zero, rfl⟩) fun a b _ hab => ⟨hab.2.2, hab.2.1⟩
      · intro p hp
        refine (abs_sub_le_of_range (totalPrize_range hP (K := K + 1) (hcl p hp)) (totalPrize_range hP (K := K + 1) (by omega))).trans ?_
        push_cast
        exact hPB
      · intro p hp c c' h1 h2
        exact (abs_sub_le_of_range (totalCost_range hC (hcl p hp) h1) (totalCost_range hC (by omega) h2)).trans hCA
    · rintro ⟨x, y⟩ ⟨x', y'⟩ - ⟨rfl, hr⟩
      dsimp only at *
      split
      · split
        · exact ⟨hr, rfl, rfl⟩
        · rfl
      · exact ⟨h.ratio_zero, rfl, rfl⟩
  · rfl

theorem mapRes_rel {α β γ : Type} {R : β → γ → Prop} {f : α → Res β} {f' : α → Res γ} {l : List α} (h : ∀ a ∈ l, ResRel R (f a) (f' a)) :
    ResRel (List.Forall₂ R) (mapRes f l) (mapRes f' l) := by
  induction l with
  | nil => exact .nil
  | cons a l ih =>
    rw [mapRes, mapRes]
    exact ResRel.bind (h a List.mem_cons_self) fun b b' _ hb => ResRel.bind (ih fun x hx => h x (List.mem_cons_of_mem _ hx)) fun bs bs' _ hbs => .cons hb hbs

theorem indexOfSmallestLoss_agree (h : Agree O O' A B) {es : List (ExtEntry F)} {es' : List (ExtEntry F')} (he : List.Forall₂ (SameEntry O O' A B) es es') :
    indexOfSmallestLoss O (es.map fun e => (e.loss, e.feasible)) = indexOfSmallestLoss O' (es'.map fun e => (e.loss, e.feasible)) := by
  refine (smallestLossLoop_agree h 0 ?_ ⟨rfl, h.ratio_zero, rfl⟩).2.2
  induction he with
  | nil => exact .nil
  | cons hx _ ih => exact .cons ⟨hx.1, hx.2.1⟩ ih

theorem sameEntry_feasible {es : List (ExtEntry F)} {es' : List (ExtEntry F')} (he : List.Forall₂ (SameEntry O O' A B) es es') :
    es.map (·.feasible) = es'.map (·.feasible) := by
  induction he with
  | nil => rfl
  | cons hx _ ih => rw [List.map_cons, List.map_cons, ih, hx.2.1]

theorem pathExtensionUntilLoop_agree (h : Agree O O' A B) (hO : O.SignSound) {g : Graph} (hg : g.WF) {cost prize : Nat → Int} {r : Nat} {step depth : Int}
    {K : Nat} (hs : 1 ≤ step) (hv : SmallRatios g cost prize step.toNat depth K A B) (rem : Nat) {t : List Nat} (ht : IsTour g r t) :
    pathExtensionUntilLoop O g cost prize r step depth rem t = pathExtensionUntilLoop O' g cost prize r step depth rem t := by
  induction rem generalizing t with
  | zero => rfl
  | succ rem ih =>
    rw [pathExtensionUntilLoop, pathExtensionUntilLoop]
    cases hf : stepFits step t with
    | false => rfl
    | true =>
      have hst := (stepFits_iff ht.ne_nil).1 hf
      obtain ⟨es, h1, h2, h3⟩ := findExtensionPaths_spec O hO hg ht cost prize step.toNat depth (by omega) hst.2
      have hrel : ResRel (List.Forall₂ (SameEntry O O' A B)) (findExtensionPaths O g t cost prize r step.toNat depth)
          (findExtensionPaths O' g t cost prize r step.toNat depth) :=
        mapRes_rel fun i hi => extensionEntry_agree h hv r i (List.mem_range.1 hi) (by omega)
      rw [h1] at hrel
      rw [if_neg (by simp), if_neg (by simp), h1]
      cases he : findExtensionPaths O' g t cost prize r step.toNat depth with
      | throw e => rw [he] at hrel; exact hrel.elim
      | ub e => rw [he] at hrel; exact hrel.elim
      | ok es' =>
        rw [he] at hrel
        have hrel : List.Forall₂ (SameEntry O O' A B) es es' := hrel
        simp only [Res.ok_bind]
        have hfe : es.map (·.feasible) = es'.map (·.feasible) := sameEntry_feasible hrel
        rw [← hfe, ← indexOfSmallestLoss_agree h hrel]
        by_cases hn : numFeasibleExtensions (es.map (·.feasible)) > 0
        · obtain ⟨k, e, hk, hke, hfe⟩ := selected_entry O es hn
          have hk0 : ¬ ((k : Int) < 0) := by omega
          obtain ⟨e', hke', hee⟩ : ∃ e', es'[k]? = some e' ∧ SameEntry O O' A B e e' := by
            have hlen := hrel.length_eq
            obtain ⟨hlt, rfl⟩ := List.getElem?_eq_some_iff.1 hke
            exact ⟨es'[k], List.getElem?_eq_getElem (by omega), hrel.get hlt (by omega)⟩
          simp only [hn, if_true, hk, hk0, if_false, Int.toNat_natCast, hke, hke']
          have hki : k < t.length - 1 := by
            have := (List.getElem?_eq_some_iff.1 hke).1; omega
          obtain ⟨t1, s1, s2, -, -⟩ := swap_mod ht hki hst.2 ((h3 k e hke).1 hfe).2
          rw [← hee.2.2]
          simp only [s1, Res.ok_bind, ih s2]
        · simp only [hn, if_false]

theorem pathExtensionUntil_agree (h : Agree O O' A B) (hO : O.SignSound) {g : Graph} (hg : g.WF) {cost prize : Nat → Int} {r : Nat} {step depth : Int}
    {K : Nat} (hs : 1 ≤ step) (hv : SmallRatios g cost prize step.toNat depth K A B) {t : List Nat} (ht : IsTour g r t) (quota : Int) :
    pathExtensionUntilPrizeFeasible O g t cost prize r quota step depth = pathExtensionUntilPrizeFeasible O' g t cost prize r quota step depth := by
  rw [pathExtensionUntilPrizeFeasible, pathExtensionUntilPrizeFeasible, pathExtensionUntilLoop_agree h hO hg hs hv g.n ht]

/-! ### Extension by gain -/

/-- The entries of the map of gains. -/
def SameGain (O : FloatOps F) (O' : FloatOps F') (A B : Int) (e : GainEntry F) (e' : GainEntry F') : Prop :=
  SameRatio O O' A B e.value e'.value ∧ e.index = e'.index

variable {g : Graph} {cost prize : Nat → Int}

theorem gainLoop_agree (h : Agree O O' A B) (hp : ∀ v, |prize v| ≤ A) (hc : ∀ e e' e'', |cost e + cost e' - cost e''| ≤ B) (v i u : Nat) (l : List Nat)
    {st : GainEntry F} {st' : GainEntry F'} (hst : SameGain O O' A B st st') :
    ResRel (SameGain O O' A B) (gainLoop O g cost prize v i u l st) (gainLoop O' g cost prize v i u l st') := by
  induction l generalizing i u st st' with
  | nil => exact hst
  | cons w rest ih =>
    rw [gainLoop, gainLoop]
    refine ResRel.bind_same _ fun uv _ => ResRel.bind_same _ fun vw _ => ResRel.bind_same _ fun uw _ => ?_
    cases uw with
    | none => rfl
    | some euw =>
      cases vw with
      | none => exact ih _ _ hst
      | some evw =>
        cases uv with
        | none => exact ih _ _ hst
        | some euv =>
          have hr : SameRatio O O' A B (unitaryGain O (prize v) (cost euw) (cost euv) (cost evw)) (unitaryGain O' (prize v) (cost euw) (cost euv) (cost evw)) :=
            .mk _ _ (hp v) (hc _ _ _)
          refine ih _ _ ?_
          rw [h.ratio_lt hst.1 hr]
          split
          · exact ⟨hr, rfl⟩
          · exact hst

theorem unitaryGainOfVertex_agree (h : Agree O O' A B) (hp : ∀ v, |prize v| ≤ A) (hc : ∀ e e' e'', |cost e + cost e' - cost e''| ≤ B) (t : List Nat) (v : Nat) :
    ResRel (SameGain O O' A B) (unitaryGainOfVertex O g t cost prize v) (unitaryGainOfVertex O' g t cost prize v) := by
  cases t with
  | nil => rfl
  | cons u t => exact gainLoop_agree h hp hc v 0 u t ⟨h.ratio_zero, rfl⟩

/-- The maps of gains. -/
def SameMap (O : FloatOps F) (O' : FloatOps F') (A B : Int) (m : GainMap F) (m' : GainMap F') : Prop :=
  ∀ v, Option.Rel (SameGain O O' A B) (m v) (m' v)

theorem biggestGainLoop_agree (h : Agree O O' A B) (hp : ∀ v, |prize v| ≤ A) (hc : ∀ e e' e'', |cost e + cost e' - cost e''| ≤ B) (t : List Nat)
    (inTour : Nat → Bool) (l : List Nat) {m : GainMap F} {m' : GainMap F'} (hm : SameMap O O' A B m m') (best : Option Nat) {x : F} {x' : F'}
    (hx : SameRatio O O' A B x x') :
    ResRel (fun s s' => SameMap O O' A B s.1 s'.1 ∧ s.2.1 = s'.2.1 ∧ SameRatio O O' A B s.2.2 s'.2.2)
      (biggestGainLoop O g t cost prize inTour l (m, best, x)) (biggestGainLoop O' g t cost prize inTour l (m', best, x')) := by
  induction l generalizing m m' best x x' with
  | nil => exact ⟨hm, rfl, hx⟩
  | cons v vs ih =>
    rw [biggestGainLoop, biggestGainLoop]
    split
    · exact ih hm best hx
    · refine ResRel.bind (unitaryGainOfVertex_agree h hp hc t v) fun e e' _ hee => ?_
      have hm' : SameMap O O' A B (upd m v (some e)) (upd m' v (some e')) := by
        intro w
        unfold upd
        split
        · exact .some hee
        · exact hm w
      dsimp only
      rw [h.ratio_lt hx hee.1]
      split
      · exact ih hm' _ hee.1
      · exact ih hm' _ hx

theorem insertBiggestGainVertex_agree (t : List Nat) (v : Nat) {m : GainMap F} {m' : GainMap F'} (hm : SameMap O O' A B m m') :
    insertBiggestGainVertex t v m = insertBiggestGainVertex t v m' := by
  unfold insertBiggestGainVertex
  have := hm v
  revert this
  generalize m v = a
  generalize m' v = b
  intro this
  cases this with
  | none => rfl
  | some hab => dsimp only; rw [hab.2]

theorem extensionUntilLoop_agree (h : Agree O O' A B) (hp : ∀ v, |prize v| ≤ A) (hc : ∀ e e' e'', |cost e + cost e' - cost e''| ≤ B) (quota : Int)
    (fuel attempts : Nat) (ins : Bool) (cur : Int) (inTour : Nat → Bool) {m : GainMap F} {m' : GainMap F'} (hm : SameMap O O' A B m m') (t : List Nat) :
    extensionUntilLoop O g cost prize quota fuel attempts ins cur inTour m t = extensionUntilLoop O' g cost prize quota fuel attempts ins cur inTour m' t := by
  induction fuel generalizing attempts ins cur inTour m m' t with
  | zero => rfl
  | succ fuel ih =>
    rw [extensionUntilLoop, extensionUntilLoop]
    split
    · refine ResRel.eq (ResRel.bind (R := fun s s' => SameMap O O' A B s.1 s'.1 ∧ s.2 = s'.2) ?_ ?_)
      · rw [findVertexWithBiggestGain, findVertexWithBiggestGain]
        exact ResRel.bind (biggestGainLoop_agree h hp hc t inTour _ hm none h.ratio_zero) fun a b _ hab => ⟨hab.1, hab.2.1⟩
      · rintro ⟨m1, best⟩ ⟨m2, best'⟩ - ⟨hm1, hb⟩
        dsimp only at hm1 hb
        subst hb
        cases best with
        | none => rfl
        | some v =>
          dsimp only
          rw [insertBiggestGainVertex_agree t v hm1]
          exact ResRel.bind_same _ fun t' _ => ResRel.of_eq (ih _ _ _ _ hm1 t')
    · rfl

theorem extensionUntil_agree (h : Agree O O' A B) (hp : ∀ v, |prize v| ≤ A) (hc : ∀ e e' e'', |cost e + cost e' - cost e''| ≤ B) (quota : Int) (t : List Nat) :
    extensionUntilPrizeFeasible O g t cost prize quota = extensionUntilPrizeFeasible O' g t cost prize quota := by
  rw [extensionUntilPrizeFeasible, extensionUntilPrizeFeasible]
  congr 1
  funext cur
  exact extensionUntilLoop_agree h hp hc quota _ _ _ _ _ (fun v => .none) t

end

end Pctsp
