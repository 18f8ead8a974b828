import Verif.Model.PrizeRow
import Verif.Lemmas.RowsTour

/-!
# Property theorems: the row of the quota (C151)
-/

namespace Pctsp

theorem variableNameToWeight_fold (addr : Nat → Nat) (weight : Nat → Int) (order : List Nat) (m : Nat → Int) (a : Nat) :
    order.foldl (fun m e => upd m (addr e) (weight e)) m a =
      match order.reverse.find? (fun e => addr e == a) with | some e => weight e | none => m a := by
  induction order generalizing m with
  | nil => simp
  | cons e l ih =>
    rw [List.foldl_cons, ih, List.reverse_cons, List.find?_append]
    cases h : l.reverse.find? (fun e => addr e == a) with
    | some f => simp
    | none =>
      simp only [Option.none_or, List.find?_singleton, upd]
      by_cases hae : addr e = a
      · simp [hae]
      · simp [hae, Ne.symm hae]

/-- **C151.** A variable gets the weight of the last edge of the map whose variable has a name at the same address, and no weight if there is none. -/
theorem C151_last (addr : Nat → Nat) (weight : Nat → Int) (quota : Int) (order vars : List Nat) (count : Nat) (hc : count ≤ vars.length) :
    ∃ row, addPrizeConstraint addr weight quota order vars count = .ok row ∧ row.lhs = none ∧ row.rhs = some (-quota) ∧
      row.coeffs.map Prod.fst = vars.take count ∧
      ∀ p ∈ row.coeffs, (∀ pre f post, order = pre ++ f :: post → addr f = addr p.1 → (∀ e ∈ post, addr e ≠ addr p.1) → p.2 = -weight f) ∧
        ((∀ e ∈ order, addr e ≠ addr p.1) → p.2 = 0) := by
  refine ⟨_, if_pos hc, rfl, rfl, by simp [Function.comp_def], fun p hp => ?_⟩
  simp only [List.mem_map] at hp
  obtain ⟨e, -, rfl⟩ := hp
  simp only [variableNameToWeight, variableNameToWeight_fold]
  constructor
  · rintro pre f post rfl hf hpost
    have : (pre ++ f :: post).reverse.find? (fun x => addr x == addr e) = some f := by
      rw [List.reverse_append, List.reverse_cons, List.append_assoc, List.find?_append,
        List.find?_eq_none.2 (fun x hx => by simpa using hpost x (by simpa using hx))]
      simp [hf]
    rw [this]
  · intro h
    have : order.reverse.find? (fun x => addr x == addr e) = none := List.find?_eq_none.2 fun x hx => by simpa using h x (by simpa using hx)
    rw [this]; rfl

example := C151_last (fun e => e % 2) (fun e => 10 * e) 7 [1, 3, 2] [3, 1, 2, 0] 3 (by decide)
example : addPrizeConstraint (fun e => e % 2) (fun e => 10 * e) 7 [1, 3, 2] [3, 1, 2, 0] 3 =
    .ok { coeffs := [(3, -30), (1, -30), (2, -20)], lhs := none, rhs := some (-7) } := by decide +kernel

/-- **C151.** If no two names share an address, the row says that the prizes of the visited vertices reach the quota, whatever the order of the variables in
the map and in SCIP. -/
theorem C151_quota {g : Graph} (hg : SimpleWithLoops g) (prize : Nat → Int) (quota : Int) {addr : Nat → Nat}
    (ha : ∀ e < g.edges.length, ∀ f < g.edges.length, addr e = addr f → e = f) {order vars : List Nat} (ho : order.Perm (List.range g.edges.length))
    (hv : vars.Perm (List.range g.edges.length)) :
    ∃ row, addPrizeConstraint addr (putPrizeOntoEdgeWeights g prize) quota order vars g.edges.length = .ok row ∧
      (∀ e v, g.edges[e]? = some (v, v) → (e, -prize v) ∈ row.coeffs) ∧ (∀ e u v, g.edges[e]? = some (u, v) → u ≠ v → (e, 0) ∈ row.coeffs) ∧
      (row.coeffs.map Prod.fst).Nodup ∧
      ∀ x, row.Sat x ↔ quota ≤ ((List.range g.n).map fun v => prize v * loopVal g x v).sum := by
  have hlen : vars.length = g.edges.length := by simpa using hv.length_eq
  have hw : ∀ e < g.edges.length, variableNameToWeight addr (putPrizeOntoEdgeWeights g prize) order (addr e) = putPrizeOntoEdgeWeights g prize e := by
    intro e he
    rw [variableNameToWeight, variableNameToWeight_fold]
    cases h : order.reverse.find? (fun x => addr x == addr e) with
    | none =>
      have := List.find?_eq_none.1 h e (by simp [ho.mem_iff, he])
      simp at this
    | some f =>
      have h1 := List.find?_some h
      have h2 := List.mem_of_find?_eq_some h
      rw [List.mem_reverse, ho.mem_iff, List.mem_range] at h2
      rw [ha f h2 e he (by simpa using h1)]
  have hco : (vars.take g.edges.length).map (fun e => (e, -variableNameToWeight addr (putPrizeOntoEdgeWeights g prize) order (addr e))) =
      vars.map fun e => (e, -putPrizeOntoEdgeWeights g prize e) := by
    rw [List.take_of_length_le hlen.le]
    exact List.map_congr_left fun e he => by rw [hw e (by simpa [hv.mem_iff] using he)]
  refine ⟨_, if_pos hlen.ge, ?_, ?_, ?_, fun x => ?_⟩
  · intro e v he
    have helt := (List.getElem?_eq_some_iff.1 he).1
    have hidx : g.edgeIdx v v = some e := hg.edgeIdx (Or.inl he)
    simp only [hco]
    exact List.mem_map.2 ⟨e, by simp [hv.mem_iff, helt], by rw [putPrize_eq g prize he]; simp [hidx]⟩
  · intro e u v he huv
    have helt := (List.getElem?_eq_some_iff.1 he).1
    simp only [hco]
    exact List.mem_map.2 ⟨e, by simp [hv.mem_iff, helt], by rw [putPrize_eq g prize he]; simp [huv]⟩
  · simp only [hco, List.map_map, Function.comp_def, List.map_id']
    exact hv.nodup_iff.2 List.nodup_range
  · have h1 := prizeRow_activity hg prize quota x
    have h2 : Row.activity x { coeffs := vars.map fun e => (e, -putPrizeOntoEdgeWeights g prize e), lhs := none, rhs := some (-quota) } =
        (prizeRow g (putPrizeOntoEdgeWeights g prize) quota).activity x := by
      simp only [Row.activity, prizeRow, List.map_map]
      exact sum_eq_of_perm (hv.map _)
    simp only [hco]
    rw [Row.Sat, h2, h1]
    simp only [reduceCtorEq, Option.some.injEq, forall_eq', false_imp_iff, implies_true, true_and]
    omega

example := C151_quota (g := { n := 2, edges := [(0, 1), (0, 0), (1, 1)] }) (by decide) (fun v => 3 * v + 1) 4 (addr := fun e => 100 - 10 * e)
  (by decide) (order := [2, 0, 1]) (vars := [1, 2, 0]) (by decide) (by decide)

end Pctsp
