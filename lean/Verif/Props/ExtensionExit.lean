import Verif.Props.Extension

/-! # When extending until feasible gives up: C16 -/

namespace Pctsp

variable {F : Type}

/-- The loop stops because the tour has too few edges, or all rounds were used, or the last search reports nothing. -/
theorem pathExtensionUntilLoop_exit (O : FloatOps F) (hO : O.SignSound) {g : Graph} (hg : g.WF) {r : Nat}
    (cost prize : Nat → Int) (step depth : Int) (hs : 1 ≤ step) (rem : Nat) (t : List Nat) (ht : IsTour g r t) :
    ∃ t', pathExtensionUntilLoop O g cost prize r step depth rem t = .ok t' ∧ IsTour g r t' ∧
      ((t'.length : Int) ≤ step + 1 ∨ tourPrize prize t + rem ≤ tourPrize prize t' ∨
        ∃ es, findExtensionPaths O g t' cost prize r step.toNat depth = .ok es ∧ ∀ e ∈ es, e.feasible = false) := by
  induction rem generalizing t with
  | zero => exact ⟨t, rfl, ht, Or.inr (Or.inl (by simp))⟩
  | succ rem ih =>
    rw [pathExtensionUntilLoop]
    have hlen : 1 ≤ t.length := List.length_pos_iff.2 ht.ne_nil
    cases hf : stepFits step t with
    | false =>
      refine ⟨t, rfl, ht, Or.inl ?_⟩
      have : ¬ (0 ≤ step ∧ step.toNat < t.length - 1) := by
        rw [← stepFits_iff ht.ne_nil, hf]; simp
      omega
    | true =>
      rw [if_neg (by simp)]
      have hst := (stepFits_iff ht.ne_nil).1 hf
      obtain ⟨es, h1, h2, h3⟩ := findExtensionPaths_spec O hO hg ht cost prize step.toNat depth (by omega) hst.2
      rw [h1]
      simp only [Res.ok_bind]
      by_cases hn : numFeasibleExtensions (es.map (·.feasible)) > 0
      · obtain ⟨k, e, hk, hke, hfe⟩ := selected_entry O es hn
        have hk0 : ¬ ((k : Int) < 0) := by omega
        simp only [hn, if_true, hk, hk0, if_false, Int.toNat_natCast, hke]
        have hki : k < t.length - 1 := by
          have := (List.getElem?_eq_some_iff.1 hke).1; omega
        obtain ⟨t1, s1, s2, s3, -⟩ := swap_mod ht hki hst.2 ((h3 k e hke).1 hfe).2
        rw [s1]
        simp only [Res.ok_bind]
        obtain ⟨t', r1, r2, r4⟩ := ih t1 s2
        refine ⟨t', r1, r2, ?_⟩
        rcases r4 with r4 | r4 | r4
        · exact Or.inl r4
        · right; left; push_cast; omega
        · exact Or.inr (Or.inr r4)
      · simp only [hn, if_false]
        exact ⟨t, rfl, ht, Or.inr (Or.inr ⟨es, h1, numFeasible_zero hn⟩)⟩

/-- C16: if the result is not prize feasible then the search for extensions (`findExtensionPaths`) reports nothing on it, or the tour has at most
`step` edges, or `num_vertices` extensions were made (each raised the prize by at least 1). -/
theorem C16_exit (O : FloatOps F) (hO : O.SignSound) (g : Graph) (hg : g.WF) (r : Nat) (t : List Nat)
    (ht : IsTour g r t) (cost prize : Nat → Int) (quota step depth : Int) (hs : 1 ≤ step) (t' : List Nat)
    (h : pathExtensionUntilPrizeFeasible O g t cost prize r quota step depth = .ok t') (hq : tourPrize prize t' < quota) :
    (t'.length : Int) ≤ step + 1 ∨ tourPrize prize t + g.n ≤ tourPrize prize t' ∨
      ∃ es, findExtensionPaths O g t' cost prize r step.toNat depth = .ok es ∧ ∀ e ∈ es, e.feasible = false := by
  obtain ⟨t1, h1, -, h2, -⟩ := C15_until_feasible_tour O hO g hg r t ht cost prize quota step depth hs
  rw [h] at h1
  obtain rfl : t' = t1 := by simpa using h1
  have hlt : tourPrize prize t < quota := by omega
  rw [pathExtensionUntilPrizeFeasible, totalPrizeOfTour_eq prize ht.ne_nil] at h
  simp only [Res.ok_bind, hlt, if_true] at h
  obtain ⟨t2, r1, -, r3⟩ := pathExtensionUntilLoop_exit O hO hg cost prize step depth hs g.n t ht
  rw [h] at r1
  obtain rfl : t' = t2 := by simpa using r1
  exact r3

/-- C16: what it means that the search reports nothing for a depth limit of 2: there is no segment of `step` edges and outside vertex of larger
prize next to both ends, and no stretch around the root whose ends are next to the root and whose other vertices have negative prize
in total (the root itself stays). -/
theorem C16_depth_two_exact (O : FloatOps F) (hO : O.Lawful) (g : Graph) (hg : g.WF) (r : Nat) (t : List Nat)
    (ht : IsTour g r t) (cost prize : Nat → Int) (step : Nat) (hs : 1 ≤ step) (hsk : step < t.length - 1) :
    (∃ es, findExtensionPaths O g t cost prize r step 2 = .ok es ∧ ∀ e ∈ es, e.feasible = false) ↔
      (∀ A u Y w B x, t = A ++ u :: (Y ++ w :: B) → Y.length + 1 = step → x ∉ t → Adj g u x → Adj g x w →
        prize x ≤ prizeSum prize Y) ∧
      (∀ P v Q u R, t = r :: (P ++ v :: (Q ++ u :: (R ++ [r]))) → R.length + P.length + 2 = step → Adj g u r → Adj g r v →
        0 ≤ prizeSum prize R + prizeSum prize P) := by
  have hO2 : ∀ d : Int, 0 < d → O.lt O.zero (O.ofInt d) = true := fun d hd => (hO.sign d).2 hd
  obtain ⟨es, h1, h2, h3⟩ := findExtensionPaths_spec O hO.signSound hg ht cost prize step 2 hs hsk
  constructor
  · rintro ⟨es', h4, h5⟩
    rw [h1] at h4
    obtain rfl : es = es' := by simpa using h4
    constructor
    · intro A u Y w B x q1 q2 q3 q4 q5
      have hA : A.length < es.length := by
        have := congrArg List.length q1
        simp only [List.length_append, List.length_cons] at this
        omega
      exact (h3 A.length _ (List.getElem?_eq_getElem hA)).2.1 (h5 _ (List.getElem_mem hA)) (by omega) hO2 A u Y w B q1 rfl q2 x
        q3 q4 q5
    · intro P v Q u R q1 q2 q3 q4
      have hA : P.length + Q.length + 2 < es.length := by
        have := congrArg List.length q1
        simp only [List.length_append, List.length_cons, List.length_nil] at this
        omega
      exact (h3 _ _ (List.getElem?_eq_getElem hA)).2.2 (h5 _ (List.getElem_mem hA)) rfl hO2 P v Q u R q1 rfl q2 q3 q4
  · rintro ⟨a1, a2⟩
    refine ⟨es, h1, fun e he => ?_⟩
    obtain ⟨i, hi⟩ := List.mem_iff_getElem?.1 he
    cases hf : e.feasible with
    | false => rfl
    | true =>
      exfalso
      rcases ((h3 i e hi).1 hf).2 with ⟨-, A, u, Y, w, B, X, q1, q2, q3, q4, q5, q6, q7, q8, q9, q10⟩ |
        ⟨P, v, Q, u, R, q1, q2, q3, q4, q5, hpr⟩
      · match X, q5, q9 with
        | [x], _, _ =>
          rw [q4] at q6
          have := a1 A u Y w B x q1 q3 (q8 x (by simp)) (q6 (u, x) (by simp [consec])) (q6 (x, w) (by simp [consec]))
          simp [prizeSum] at q10 this
          omega
        | x :: y :: X, _, q9 => simp only [List.length_cons] at q9; omega
      · rw [q4] at q5
        have := a2 P v Q u R q1 q3 (q5 (u, r) (by simp [consec])) (q5 (r, v) (by simp [consec]))
        omega

/-- C16: for larger depth limits the search can miss an extension: the breadth first search knows only one path to each outside vertex, here
`0-4-2`, and misses `0-3-4-2`, which has more prize than the segment `0-1-2`.  So the function gives up on an infeasible tour although an
extension exists, with positive prizes only. -/
theorem C16_deep_search_misses : ∃ (g : Graph) (t : List Nat) (cost prize : Nat → Int) (quota : Int),
    g.WF ∧ IsTour g 0 t ∧ (∀ v, 0 < prize v) ∧
      pathExtensionUntilPrizeFeasible FloatOps.exact g t cost prize 0 quota 2 3 = .ok t ∧ tourPrize prize t < quota ∧
      ∃ A u Y w B X, t = A ++ u :: (Y ++ w :: B) ∧ Y.length + 1 = 2 ∧ IsWalk g (u :: (X ++ [w])) ∧ X.Nodup ∧ (∀ y ∈ X, y ∉ t) ∧
        (X.length : Int) ≤ 3 - 1 ∧ prizeSum prize Y < prizeSum prize X := by
  refine ⟨{ n := 5, edges := [(0, 1), (1, 2), (2, 0), (0, 3), (3, 4), (0, 4), (4, 2)] }, [0, 1, 2, 0], fun _ => 1,
    fun v => if v = 1 then 3 else if v = 3 then 5 else 1, 100, by decide, ⟨⟨[1, 2], rfl⟩, by decide, by decide⟩, ?_, by decide +kernel,
    by decide, [], 0, [1], 2, [0], [3, 4], by decide, by decide, by decide, by decide, by decide, by decide, by decide⟩
  intro v
  dsimp only
  split
  · decide
  · split <;> decide

/-- The hypotheses of `C16_exit`: the function gives up at once on this tour. -/
example : pathExtensionUntilPrizeFeasible FloatOps.exact extGraph [0, 1, 4, 2, 3, 0] (fun _ => 1) (fun _ => 1) 0 20 1 2
    = .ok [0, 1, 4, 2, 3, 0] ∧ tourPrize (fun _ => 1) [0, 1, 4, 2, 3, 0] < 20 := ⟨by decide +kernel, by decide⟩

/-- Both sides of `C16_depth_two_exact` can be false: the search finds vertex 4. -/
example : (match findExtensionPaths FloatOps.exact extGraph [0, 1, 2, 3, 0] (fun _ => 1) (fun _ => 1) 0 1 2 with
    | .ok es => es.any (·.feasible)
    | _ => false) = true := by decide +kernel

example := C16_exit FloatOps.exact FloatOps.exact_lawful.signSound extGraph (by decide) 0 [0, 1, 2, 3, 0] extGraph_tour (fun _ => 1) (fun _ => 1) 20 1 2 (by decide)
  [0, 1, 4, 2, 3, 0] (by decide +kernel) (by decide)
example := C16_depth_two_exact FloatOps.exact FloatOps.exact_lawful extGraph (by decide) 0 [0, 1, 2, 3, 0] extGraph_tour (fun _ => 1) (fun _ => 1) 1 (by decide)
  (by decide)

end Pctsp
