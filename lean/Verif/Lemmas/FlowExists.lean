import Verif.Lemmas.Flow

/-! # Every network has a maximum flow -/

namespace Pctsp

open Finset

/-- The end points of a directed edge. -/
def srcOf (des : List ((Nat × Nat) × Int)) (j : Nat) : Nat := (des.getD j ((0, 0), 0)).1.1
def dstOf (des : List ((Nat × Nat) × Int)) (j : Nat) : Nat := (des.getD j ((0, 0), 0)).1.2

/-- A path of edges with positive residual capacity. -/
inductive EdgePath (des : List ((Nat × Nat) × Int)) (w : Nat → Int) (t : Nat) : Nat → List Nat → Prop
  | nil : EdgePath des w t t []
  | cons (j : Nat) (js : List Nat) (hj : j < des.length) (hw : 0 < w j) (h : EdgePath des w t (dstOf des j) js) :
    EdgePath des w t (srcOf des j) (j :: js)

variable {des : List ((Nat × Nat) × Int)} {w : Nat → Int} {t : Nat}

theorem EdgePath.suffix {s : Nat} {js : List Nat} (h : EdgePath des w t s js) (hnd : (js.map (srcOf des)).Nodup) {v : Nat}
    (hv : v ∈ js.map (srcOf des)) : ∃ js', EdgePath des w t v js' ∧ (js'.map (srcOf des)).Nodup := by
  induction h with
  | nil => simp at hv
  | cons j js hj hw h ih =>
    rw [List.map_cons] at hv hnd
    rcases List.mem_cons.1 hv with rfl | hv
    · exact ⟨j :: js, .cons j js hj hw h, hnd⟩
    · exact ih (List.nodup_cons.1 hnd).2 hv

theorem exists_edgePath {s : Nat} (h : Relation.ReflTransGen (HasEdge (positiveEdges des w)) s t) :
    ∃ js, EdgePath des w t s js ∧ (js.map (srcOf des)).Nodup := by
  induction h using Relation.ReflTransGen.head_induction_on with
  | refl => exact ⟨[], .nil, by simp⟩
  | @head s c hsc _ ih =>
    obtain ⟨js, h1, h2⟩ := ih
    by_cases hs : s ∈ js.map (srcOf des)
    · exact h1.suffix h2 hs
    · obtain ⟨j, d, hd, hw, hdp⟩ := mem_positiveEdges.1 hsc
      have hj := (List.getElem?_eq_some_iff.1 hd).1
      have hs' : srcOf des j = s := by simp [srcOf, hd, hdp]
      have hd' : dstOf des j = c := by simp [dstOf, hd, hdp]
      subst hs' hd'
      exact ⟨j :: js, .cons j js hj hw h1, by rw [List.map_cons, List.nodup_cons]; exact ⟨hs, h2⟩⟩

theorem EdgePath.mem {s : Nat} {js : List Nat} (h : EdgePath des w t s js) : ∀ j ∈ js, j < des.length ∧ 0 < w j := by
  induction h with
  | nil => simp
  | cons j js hj hw _ ih =>
    intro i hi
    rcases List.mem_cons.1 hi with rfl | hi
    · exact ⟨hj, hw⟩
    · exact ih i hi

theorem EdgePath.balance {s : Nat} {js : List Nat} (h : EdgePath des w t s js) (v : Nat) :
    ((js.countP fun j => srcOf des j = v) : Int) - (js.countP fun j => dstOf des j = v) =
      (if s = v then 1 else 0) - (if t = v then 1 else 0) := by
  induction h with
  | nil => simp
  | cons j js hj hw _ ih =>
    rw [List.countP_cons, List.countP_cons]
    push_cast
    simp only [decide_eq_true_eq]
    split <;> split <;> simp_all <;> omega

theorem sum_count (N : Nat) (js : List Nat) (hjs : ∀ j ∈ js, j < N) (P : Nat → Prop) [DecidablePred P] :
    ∑ j ∈ (range N).filter P, (js.count j : Int) = (js.countP fun j => P j : Nat) := by
  induction js with
  | nil => simp
  | cons a js ih =>
    have h1 := ih fun j hj => hjs j (by simp [hj])
    have ha := hjs a (by simp)
    simp only [List.count_cons, List.countP_cons, Nat.cast_add, Finset.sum_add_distrib, h1]
    congr 1
    by_cases hP : P a
    · rw [Finset.sum_eq_single a]
      · simp [hP]
      · intro b _ hb; simp [Ne.symm hb]
      · intro hc; exact absurd (Finset.mem_filter.2 ⟨Finset.mem_range.2 ha, hP⟩) hc
    · rw [Finset.sum_eq_zero]
      · simp [hP]
      · intro b hb
        have : a ≠ b := by rintro rfl; exact hP (Finset.mem_filter.1 hb).2
        simp [this]

theorem netOut_eq (a : FlowAnswer) (v : Nat) : netOut des a v = ∑ j ∈ (range des.length).filter (fun j => srcOf des j = v), flowOn des a j := by
  rw [netOut, list_filter_sum, list_sum_range, Finset.sum_filter]
  refine Finset.sum_congr rfl fun j hj => ?_
  rw [Finset.mem_range] at hj
  simp [srcOf, hj]

theorem Paired.ends (hp : Paired des) {j : Nat} (hj : j < des.length) :
    srcOf des (reverseOf j) = dstOf des j ∧ dstOf des (reverseOf j) = srcOf des j := by
  obtain ⟨d', h1, h2⟩ := hp.swap j des[j] (List.getElem?_eq_getElem hj)
  simp [srcOf, dstOf, h1, h2, hj]

/-- An augmenting path raises the value by one. -/
theorem IsFlow.augment (hp : Paired des) {s : Nat} {a : FlowAnswer} (h : IsFlow des s t a) (hst : s ≠ t)
    (hpath : Relation.ReflTransGen (HasEdge (positiveEdges des a.residual)) s t) : ∃ a', IsFlow des s t a' ∧ a'.value = a.value + 1 := by
  obtain ⟨js, h1, h2⟩ := exists_edgePath hpath
  have hnd : js.Nodup := List.Nodup.of_map _ h2
  have hm := h1.mem
  let a' : FlowAnswer := { value := a.value + 1, residual := fun j => a.residual j - js.count j + js.count (reverseOf j) }
  have hf : ∀ j, flowOn des a' j = flowOn des a j + js.count j - js.count (reverseOf j) := by
    intro j; simp only [flowOn, a']; omega
  have hnet : ∀ v, netOut des a' v = netOut des a v + (if s = v then 1 else 0) - (if t = v then 1 else 0) := by
    intro v
    rw [netOut_eq, netOut_eq]
    have e1 : ∑ j ∈ (range des.length).filter (fun j => srcOf des j = v), flowOn des a' j =
        ∑ j ∈ (range des.length).filter (fun j => srcOf des j = v), flowOn des a j +
        ∑ j ∈ (range des.length).filter (fun j => srcOf des j = v), (js.count j : Int) -
        ∑ j ∈ (range des.length).filter (fun j => srcOf des j = v), (js.count (reverseOf j) : Int) := by
      rw [← Finset.sum_add_distrib, ← Finset.sum_sub_distrib]
      exact Finset.sum_congr rfl fun j _ => hf j
    have e2 : ∑ j ∈ (range des.length).filter (fun j => srcOf des j = v), (js.count (reverseOf j) : Int) =
        ∑ j ∈ (range des.length).filter (fun j => dstOf des j = v), (js.count j : Int) := by
      refine Finset.sum_nbij' reverseOf reverseOf ?_ ?_ ?_ ?_ ?_
      · intro j hj
        obtain ⟨q1, q2⟩ := Finset.mem_filter.1 hj
        have hj' := Finset.mem_range.1 q1
        exact Finset.mem_filter.2 ⟨Finset.mem_range.2 (hp.lt j hj'), by rw [(hp.ends hj').2]; exact q2⟩
      · intro j hj
        obtain ⟨q1, q2⟩ := Finset.mem_filter.1 hj
        have hj' := Finset.mem_range.1 q1
        exact Finset.mem_filter.2 ⟨Finset.mem_range.2 (hp.lt j hj'), by rw [(hp.ends hj').1]; exact q2⟩
      · intro j _; exact reverseOf_reverseOf j
      · intro j _; exact reverseOf_reverseOf j
      · intro j _; rfl
    have hb := h1.balance v
    rw [e1, e2, sum_count _ _ (fun j hj => (hm j hj).1), sum_count _ _ (fun j hj => (hm j hj).1)]
    omega
  refine ⟨a', ⟨?_, ?_, ?_, ?_⟩, rfl⟩
  · intro j hj
    have hc : js.count j ≤ 1 := List.nodup_iff_count_le_one.1 hnd j
    have h0 := h.nonneg j hj
    simp only [a']
    by_cases hjm : j ∈ js
    · have := (hm j hjm).2
      omega
    · have : js.count j = 0 := List.count_eq_zero.2 hjm
      omega
  · intro j hj
    rw [hf, hf, h.skew j hj, reverseOf_reverseOf]; omega
  · intro v hvs hvt
    rw [hnet, h.conserve v hvs hvt, if_neg (Ne.symm hvs), if_neg (Ne.symm hvt)]; rfl
  · show a.value + 1 = _
    rw [hnet, if_neg hst, if_pos rfl, h.value]; omega

theorem exists_maxFlow (hp : Paired des) (hc : ∀ d ∈ des, 0 ≤ d.2) {s : Nat} (hst : s ≠ t) : ∃ a, IsMaxFlow des s t a := by
  have key : ∀ (k : Nat) (a : FlowAnswer), IsFlow des s t a → (cutCapacity des (fun v => decide (v = t)) - a.value).toNat = k →
      ∃ a, IsMaxFlow des s t a := by
    intro k
    induction k using Nat.strong_induction_on with
    | _ k ih =>
      intro a ha hk
      by_cases hpath : Relation.ReflTransGen (HasEdge (positiveEdges des a.residual)) s t
      · obtain ⟨a', h1, h2⟩ := ha.augment hp hst hpath
        have hle := h1.le_cut hp (fun v => decide (v = t)) (by simpa using hst) (by simp)
        exact ih _ (by omega) a' h1 rfl
      · exact ⟨a, { toIsFlow := ha, noPath := hpath }⟩
  refine key _ { value := 0, residual := fun j => (des[j]?.map Prod.snd).getD 0 } ?_ rfl
  have h0 : ∀ j, flowOn des { value := 0, residual := fun j => (des[j]?.map Prod.snd).getD 0 } j = 0 := by intro j; simp [flowOn]
  have hn : ∀ v, netOut des { value := 0, residual := fun j => (des[j]?.map Prod.snd).getD 0 } v = 0 := by
    intro v; rw [netOut_eq]; exact Finset.sum_eq_zero fun j _ => h0 j
  refine ⟨?_, ?_, ?_, ?_⟩
  · intro j hj
    simp only [List.getElem?_eq_getElem hj, Option.map_some, Option.getD_some]
    exact hc _ (List.getElem_mem hj)
  · intro j _; rw [h0, h0]; rfl
  · intro v _ _; exact hn v
  · rw [hn]; rfl

theorem capacityEdges_nonneg (ps : List (Nat × Nat)) (cs : List Int) (des : List ((Nat × Nat) × Int)) (h : capacityEdges ps cs = .ok des)
    (hc : ∀ c ∈ cs, 0 ≤ c) : ∀ d ∈ des, 0 ≤ d.2 := by
  induction ps generalizing cs des with
  | nil => cases h; simp
  | cons p ps ih =>
    match cs with
    | [] => cases h
    | c :: cs =>
      rw [capacityEdges] at h
      obtain ⟨rest, h1, h2⟩ := Res.bind_eq_ok.1 h
      cases h2
      have := ih cs rest h1 fun c hc' => hc c (by simp [hc'])
      have h0 := hc c (by simp)
      intro d hd
      simp only [List.mem_cons] at hd
      rcases hd with rfl | rfl | rfl | rfl | hd
      · exact h0
      · exact h0
      · exact Int.le_refl 0
      · exact Int.le_refl 0
      · exact this d hd

/-- The specifications of the two external functions can be met. -/
theorem exists_flowSpec : ∃ flow, FlowSpec flow := by
  classical
  refine ⟨fun des s t => if h : ∃ a, IsMaxFlow des s t a then h.choose else { value := 0, residual := fun _ => 0 }, ?_⟩
  intro ps cs des hdes hc s t hst
  have := exists_maxFlow (capacityEdges_paired _ _ _ hdes).1 (capacityEdges_nonneg _ _ _ hdes hc) hst
  simp only [dif_pos this]
  exact this.choose_spec

theorem exists_visitSpec : ∃ visit, VisitSpec visit := by
  classical
  exact ⟨fun es s v => decide (Relation.ReflTransGen (HasEdge es) s v), fun es s v => by simp⟩

end Pctsp
