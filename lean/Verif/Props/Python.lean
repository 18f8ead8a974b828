import Verif.Model.Python
import Verif.Lemmas.Detour
import Verif.Props.Binding

/-!
# Properties of the Python wrapper of the path extension (C45)
-/

namespace Pctsp

variable {α : Type} [DecidableEq α] {F : Type}

theorem Prepared.back_same {es : List (α × α)} {w : α → α → Int} {π : α → Int} {tour : List α} {D : List α} {p : Renamed α}
    (h : Prepared es w π tour D p) : getOldVertices p.lookup p.tour = .ok tour := by
  rw [h.lookup]
  exact mapRes_forall₂ (List.Forall₂.imp (fun k x hk => (getOldVertex_number _ _ _).2 hk) h.named.flip)

/-! ## C45 -/

/-- C45: called with its defaults (`path_depth_limit=2`, `step_size=1`) the function returns every tour unchanged. -/
theorem C45_defaults_no_op (O : FloatOps F) (hO : O.SignSound) (es : List (α × α)) (costs : List ((α × α) × Int))
    (prizes : List (α × Int)) (w : α → α → Int) (π : α → Int) (h : Describes es costs prizes w π)
    (r : α) (t : List α) (ht : IsTourIn es r t) : pathExtensionPy O es t costs prizes r 2 1 = .ok t := by
  obtain ⟨p, r', h1, -, h2, h3, h4⟩ := prepareRoot_spec h ht
  rw [pathExtensionPy, pathExtensionBind, h1]
  simp only [Res.ok_bind, C14_shallow_identity O hO p.graph h2.wf r' p.tour h4 p.cost p.prize 2 1 (by decide) (by decide)]
  exact h2.back_same

/-- C45: more generally with every step below 2. -/
theorem C45_small_step_no_op (O : FloatOps F) (hO : O.SignSound) (es : List (α × α)) (costs : List ((α × α) × Int))
    (prizes : List (α × Int)) (w : α → α → Int) (π : α → Int) (h : Describes es costs prizes w π)
    (r : α) (t : List α) (ht : IsTourIn es r t) (pathDepthLimit stepSize : Int) (hd : 1 ≤ pathDepthLimit) (hs : stepSize < 2) :
    pathExtensionPy O es t costs prizes r pathDepthLimit stepSize = .ok t := by
  obtain ⟨p, r', h1, -, h2, h3, h4⟩ := prepareRoot_spec h ht
  rw [pathExtensionPy, pathExtensionBind, h1]
  simp only [Res.ok_bind, C14_shallow_identity O hO p.graph h2.wf r' p.tour h4 p.cost p.prize pathDepthLimit stepSize hd hs]
  exact h2.back_same

/-- A cycle on `0, ..., n - 1` and a vertex `n` joined to `0` and to `a`. -/
def bridgeEdges (n a : Nat) : List (Nat × Nat) :=
  (List.range n).map (fun i => (i, if i + 1 = n then 0 else i + 1)) ++ [(0, n), (a, n)]

def bridgeTour (n : Nat) : List Nat := List.range n ++ [0]

def bridgePrize (n : Nat) (v : Nat) : Int := if v = n then 1 else 0

theorem mem_consec_getElem {α : Type} {l : List α} {p : α × α} (h : p ∈ consec l) :
    ∃ i : Nat, l[i]? = some p.1 ∧ l[i + 1]? = some p.2 := by
  obtain ⟨i, hi⟩ := List.mem_iff_getElem?.1 h
  rw [consec] at hi
  have := List.getElem?_zip_eq_some.1 hi
  refine ⟨i, this.1, ?_⟩
  rw [← this.2, List.getElem?_tail]

theorem mem_bridgeEdges {n a : Nat} {p : Nat × Nat} : p ∈ bridgeEdges n a ↔
    (p.1 < n ∧ p.2 = if p.1 + 1 = n then 0 else p.1 + 1) ∨ p = (0, n) ∨ p = (a, n) := by
  simp only [bridgeEdges, List.mem_append, List.mem_map, List.mem_range, List.mem_cons, List.not_mem_nil, or_false]
  constructor
  · rintro (⟨i, h1, rfl⟩ | h)
    · exact Or.inl ⟨h1, rfl⟩
    · exact Or.inr h
  · rintro (⟨h1, h2⟩ | h)
    · exact Or.inl ⟨p.1, h1, by rw [← h2]⟩
    · exact Or.inr h

theorem mem_endpoints_bridge {n a : Nat} (hn : 3 ≤ n) (ha : a < n) (v : Nat) : v ∈ endpoints (bridgeEdges n a) ↔ v ≤ n := by
  simp only [endpoints, List.mem_flatMap]
  constructor
  · rintro ⟨p, hp, hv⟩
    rw [mem_bridgeEdges] at hp
    simp only [List.mem_cons, List.not_mem_nil, or_false] at hv
    rcases hp with ⟨h1, h2⟩ | rfl | rfl
    · split at h2 <;> rcases hv with rfl | rfl <;> omega
    · simp only at hv; omega
    · simp only at hv; omega
  · intro hv
    by_cases e : v = n
    · exact ⟨(0, n), by rw [mem_bridgeEdges]; simp, by simp [e]⟩
    · exact ⟨(v, if v + 1 = n then 0 else v + 1), by rw [mem_bridgeEdges]; left; exact ⟨by simp only; omega, rfl⟩, by simp⟩

theorem bridge_describes {n a : Nat} (hn : 3 ≤ n) (ha : a < n) (ha0 : a ≠ 0) :
    Describes (bridgeEdges n a) ((bridgeEdges n a).map fun e => (e, 1)) ((List.range (n + 1)).map fun v => (v, bridgePrize n v))
      (fun _ _ => 1) (bridgePrize n) where
  distinct := by
    rw [bridgeEdges, List.pairwise_append]
    refine ⟨?_, ?_, ?_⟩
    · rw [List.pairwise_map]
      refine List.Pairwise.imp_of_mem ?_ List.pairwise_lt_range
      intro i j hi hj hij
      rw [List.mem_range] at hi hj
      simp only [SameEdge, Prod.mk.injEq, not_or]
      constructor
      · omega
      · rintro ⟨h1, h2⟩
        split at h1 <;> split at h2 <;> omega
    · simp [SameEdge]; omega
    · intro p hp q hq
      rw [List.mem_map] at hp
      obtain ⟨i, hi, rfl⟩ := hp
      rw [List.mem_range] at hi
      simp only [List.mem_cons, List.not_mem_nil, or_false] at hq
      simp only [SameEdge, not_or]
      rcases hq with rfl | rfl <;> constructor <;> simp only [Prod.mk.injEq] <;> split <;> omega
  symm := fun _ _ => rfl
  costOk := by
    intro p c hp
    simp only [List.mem_map, Prod.mk.injEq] at hp
    obtain ⟨e, he, rfl, rfl⟩ := hp
    exact ⟨rfl, Or.inl he⟩
  allCosts := fun e he => ⟨e, 1, List.mem_map.2 ⟨e, he, rfl⟩, Or.inl rfl⟩
  prizeOk := by
    intro x c hx
    simp only [List.mem_map, Prod.mk.injEq, List.mem_range] at hx
    obtain ⟨v, hv, rfl, rfl⟩ := hx
    exact ⟨rfl, (mem_endpoints_bridge hn ha v).2 (by omega)⟩
  allPrizes := by
    intro x hx
    rw [mem_endpoints_bridge hn ha] at hx
    exact ⟨_, List.mem_map.2 ⟨x, by rw [List.mem_range]; omega, rfl⟩⟩

theorem bridgeTour_get {n i : Nat} : (bridgeTour n)[i]? = if i < n then some i else if i = n then some 0 else none := by
  rw [bridgeTour]
  by_cases h : i < n
  · rw [List.getElem?_append_left (by simpa using h), if_pos h]; simp [h]
  · rw [List.getElem?_append_right (by simpa using h), if_neg h]
    by_cases e : i = n
    · subst e; simp
    · rw [if_neg e, List.getElem?_eq_none]; simp; omega

theorem bridge_isTour {n a : Nat} (hn : 3 ≤ n) : IsTourIn (bridgeEdges n a) 0 (bridgeTour n) where
  shape := by
    obtain ⟨k, rfl⟩ : ∃ k, n = k + 1 := ⟨n - 1, by omega⟩
    exact ⟨(List.range k).map Nat.succ, by simp [bridgeTour, List.range_succ_eq_map]⟩
  nodup := by simp [bridgeTour, List.nodup_range]
  walk := by
    intro p hp
    obtain ⟨i, h1, h2⟩ := mem_consec_getElem hp
    rw [bridgeTour_get] at h1 h2
    left
    rw [mem_bridgeEdges]; left
    by_cases hi : i < n
    · rw [if_pos hi] at h1
      have e1 : p.1 = i := by simpa using h1.symm
      rw [e1]
      refine ⟨hi, ?_⟩
      by_cases hj : i + 1 < n
      · rw [if_pos hj] at h2; rw [if_neg (by omega)]; simpa using h2.symm
      · rw [if_neg hj, if_pos (by omega)] at h2; rw [if_pos (by omega)]; simpa using h2.symm
    · rw [if_neg (by omega), if_neg (by omega)] at h2; simp at h2

/-- The witness: on the bridge graph the step `a` with depth `b` extends the tour and the step `b` with depth `a` does not. -/
theorem bridge_differs (O : FloatOps F) (hO : O.Lawful) (a b : Nat) (ha : 1 ≤ a) (hab : a < b) :
    let n := a + b + 1
    let es := bridgeEdges n a
    let costs := es.map fun e => (e, (1 : Int))
    let prizes := (List.range (n + 1)).map fun v => (v, bridgePrize n v)
    pathExtensionBind O es (bridgeTour n) costs prizes 0 b a = .ok (bridgeTour n) ∧
      pathExtensionBind O es (bridgeTour n) costs prizes 0 a b ≠ .ok (bridgeTour n) := by
  intro n es costs prizes
  have hd : Describes es costs prizes (fun _ _ => 1) (bridgePrize n) := bridge_describes (by omega) (by omega) (by omega)
  have ht : IsTourIn es 0 (bridgeTour n) := bridge_isTour (by omega)
  obtain ⟨p, r', h1, -, h2, h3, h4⟩ := prepareRoot_spec hd ht
  have hD := h2.nodup
  -- the name of the outside vertex
  obtain ⟨x, hx⟩ := List.mem_iff_getElem?.1 ((h2.mem n).2 ((mem_endpoints_bridge (by omega) (by omega) n).2 (Nat.le_refl _)))
  have hidx : ∀ (i k : Nat), p.tour[i]? = some k → ∃ v, (bridgeTour n)[i]? = some v ∧ (firstSeen es)[k]? = some v :=
    fun i k hk => (forall₂_getElem? h2.named (i := i)).2 k hk
  have hlen : p.tour.length = n + 1 := by rw [← h2.named.length_eq]; simp [bridgeTour]
  have hmem : ∀ (k v : Nat), (firstSeen es)[k]? = some v → (k ∈ p.tour ↔ v < n) := by
    intro k v hk
    constructor
    · intro hm
      obtain ⟨i, hi⟩ := List.mem_iff_getElem?.1 hm
      obtain ⟨v', q1, q2⟩ := hidx i k hi
      rw [hk] at q2
      obtain rfl : v = v' := by simpa using q2
      rw [bridgeTour_get] at q1
      split at q1
      · have : i = v := by simpa using q1
        omega
      · split at q1
        · have : 0 = v := by simpa using q1
          omega
        · simp at q1
    · intro hv
      have hi : v < p.tour.length := by omega
      obtain ⟨v', q1, q2⟩ := hidx v p.tour[v] (List.getElem?_eq_getElem hi)
      rw [bridgeTour_get, if_pos hv] at q1
      obtain rfl : v = v' := by simpa using q1
      rw [nodup_getElem?_inj hD hk q2]; exact List.getElem_mem hi
  have hadjn : ∀ y z, AdjIn es y z → ¬ y < n → y = n ∧ (z = 0 ∨ z = a) := by
    intro y z hyz hy
    rcases hyz with e | e
    · have := mem_bridgeEdges.1 e
      rcases this with ⟨q1, q2⟩ | q | q
      · exact absurd q1 hy
      · simp only [Prod.mk.injEq] at q; omega
      · simp only [Prod.mk.injEq] at q; omega
    · have := mem_bridgeEdges.1 e
      rcases this with ⟨q1, q2⟩ | q | q
      · simp only at q1 q2; split at q2 <;> omega
      · simp only [Prod.mk.injEq] at q; omega
      · simp only [Prod.mk.injEq] at q; omega
  have hB : Bridge p.graph r' p.tour p.prize a b x := by
    have hta : a < p.tour.length := by omega
    have hnamea : (firstSeen es)[p.tour[a]]? = some a := by
      obtain ⟨v', q1, q2⟩ := hidx a p.tour[a] (List.getElem?_eq_getElem hta)
      rw [bridgeTour_get, if_pos (by omega)] at q1
      obtain rfl : a = v' := by simpa using q1
      exact q2
    constructor
    · obtain ⟨m, hm⟩ := h4.shape
      refine ⟨(p.tour.drop 1).take (a - 1), p.tour[a], p.tour.drop (a + 1), ?_, by simp; omega, ?_, ?_⟩
      · have e1 : p.tour[a] :: p.tour.drop (a + 1) = (p.tour.drop 1).drop (a - 1) := by
          rw [List.drop_drop, show 1 + (a - 1) = a by omega, List.drop_eq_getElem_cons hta]
        rw [e1, List.take_append_drop, hm]; simp
      · rw [h2.adj h3 hx]; left; rw [mem_bridgeEdges]; right; left; rfl
      · rw [h2.adj hx hnamea]; right; rw [mem_bridgeEdges]; right; right; rfl
    · omega
    · rw [hmem x n hx]; omega
    · intro y z hyz hy
      obtain ⟨ns, hns⟩ := h2.names (t' := [y, z]) (by intro q hq; simp [consec] at hq; subst hq; exact hyz) (by simp)
      cases hns with
      | @cons y' _ l _ n1 n2 =>
        cases n2 with
        | @cons z' _ l' _ n3 n4 =>
          have hyz' := (h2.adj n1 n3).1 hyz
          have hy' : ¬ y' < n := fun hc => hy ((hmem y y' n1).2 hc)
          obtain ⟨rfl, hz⟩ := hadjn y' z' hyz' hy'
          refine ⟨nodup_getElem?_inj hD n1 hx, ?_⟩
          rcases hz with rfl | rfl
          · left; exact nodup_getElem?_inj hD n3 h3
          · right; rw [List.getElem?_eq_getElem hta, nodup_getElem?_inj hD n3 hnamea]
    · rw [h2.prizeOf x n hx]; simp [bridgePrize]
    · intro v hv
      obtain ⟨i, hi⟩ := List.mem_iff_getElem?.1 hv
      obtain ⟨v', q1, q2⟩ := hidx i v hi
      rw [h2.prizeOf v v' q2, bridgePrize, if_neg]
      have := (hmem v v' q2).1 hv
      omega
    · exact h2.nonneg (fun v => by rw [bridgePrize]; split <;> decide)
  constructor
  · rw [pathExtensionBind, h1]
    simp only [Res.ok_bind, hB.stays O hO.signSound h2.wf h4 p.cost hab]
    exact h2.back_same
  · obtain ⟨t', e1, e2, e3⟩ := hB.extends O hO h2.wf h4 p.cost ha hab
    obtain ⟨s, b1, b2, b3, b4⟩ := h2.back h3 e2
    rw [pathExtensionBind, h1]
    simp only [Res.ok_bind, e1, b1]
    intro hc
    obtain rfl : s = bridgeTour n := by simpa using hc
    rw [h2.prize h2.named, ← b4] at e3
    omega

/-- C45: for positive arguments the function does what its parameters say on all inputs iff the two numbers are equal. -/
theorem C45_as_intended_iff (O : FloatOps F) (hO : O.Lawful) (pathDepthLimit stepSize : Int) (hd : 1 ≤ pathDepthLimit)
    (hs : 1 ≤ stepSize) :
    (∀ (es : List (Nat × Nat)) (costs : List ((Nat × Nat) × Int)) (prizes : List (Nat × Int)) (w : Nat → Nat → Int) (π : Nat → Int)
      (r : Nat) (t : List Nat), Describes es costs prizes w π → (∀ v, 0 ≤ π v) → IsTourIn es r t →
      pathExtensionPy O es t costs prizes r pathDepthLimit stepSize = pathExtensionBind O es t costs prizes r stepSize pathDepthLimit) ↔
      pathDepthLimit = stepSize := by
  constructor
  · intro h
    by_contra hne
    have key : ∀ a b : Nat, 1 ≤ a → a < b →
        (pathDepthLimit = a ∧ stepSize = b ∨ pathDepthLimit = b ∧ stepSize = a) → False := by
      intro a b ha hab hor
      have hbd := bridge_differs O hO a b ha hab
      have hsame := h (bridgeEdges (a + b + 1) a) _ _ _ _ 0 (bridgeTour (a + b + 1))
        (bridge_describes (by omega) (by omega) (by omega)) (fun v => by rw [bridgePrize]; split <;> decide) (bridge_isTour (by omega))
      rcases hor with ⟨rfl, rfl⟩ | ⟨rfl, rfl⟩
      · rw [pathExtensionPy, hbd.1] at hsame
        exact hbd.2 hsame
      · rw [pathExtensionPy, hbd.1] at hsame
        exact hbd.2 hsame.symm
    rcases Int.lt_or_gt_of_ne hne with hlt | hlt
    · exact key pathDepthLimit.toNat stepSize.toNat (by omega) (by omega) (Or.inl ⟨by omega, by omega⟩)
    · exact key stepSize.toNat pathDepthLimit.toNat (by omega) (by omega) (Or.inr ⟨by omega, by omega⟩)
  · rintro rfl
    intros; rfl

/-- C45: `extension_unitary_loss` passes its numbers in the right order: it is the extension with step 1 and depth 2. -/
theorem C45_unitary_loss_in_order (O : FloatOps F) (es : List (α × α)) (costs : List ((α × α) × Int))
    (prizes : List (α × Int)) (w : α → α → Int) (π : α → Int) (h : Describes es costs prizes w π)
    (r : α) (t : List α) (ht : IsTourIn es r t) :
    ∃ p r', prepareRoot es t costs prizes r = .ok (p, r') ∧ IsTour p.graph r' p.tour ∧
      extensionUnitaryLossPy O es t costs prizes r = (extensionUnitaryLoss O p.graph p.tour p.cost p.prize r' >>=
        getOldVertices p.lookup) := by
  obtain ⟨p, r', h1, -, h2, h3, h4⟩ := prepareRoot_spec h ht
  refine ⟨p, r', h1, h4, ?_⟩
  rw [extensionUnitaryLossPy, pathExtensionBind, h1]
  rfl

/-- On the named triangle with an outside vertex the defaults do nothing, the intended call inserts `d`. -/
example : pathExtensionPy FloatOps.exact namedEdges ["a", "b", "c", "a"] namedCosts namedPrizes "a" 2 1 = .ok ["a", "b", "c", "a"] ∧
    extensionUnitaryLossPy FloatOps.exact namedEdges ["a", "b", "c", "a"] namedCosts namedPrizes "a" =
      .ok ["a", "b", "c", "d", "a"] := by decide +kernel

example := C45_defaults_no_op FloatOps.exact FloatOps.exact_lawful.signSound namedEdges namedCosts namedPrizes _ _ named_describes "a" ["a", "b", "c", "a"]
  ⟨⟨["b", "c"], rfl⟩, by decide +kernel, by decide +kernel⟩
example := C45_small_step_no_op FloatOps.exact FloatOps.exact_lawful.signSound namedEdges namedCosts namedPrizes _ _ named_describes "a" ["a", "b", "c", "a"]
  ⟨⟨["b", "c"], rfl⟩, by decide +kernel, by decide +kernel⟩ 3 1 (by decide) (by decide)
example := C45_as_intended_iff FloatOps.exact FloatOps.exact_lawful 3 2 (by decide) (by decide)

end Pctsp
