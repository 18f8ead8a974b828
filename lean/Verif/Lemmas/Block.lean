import Verif.Spec.Block
import Verif.Props.CollapseForm
import Verif.Props.Compose

/-! Helper lemmas: the heuristics do not leave a part of the graph that hangs on one vertex. -/

namespace Pctsp

section walks
variable {α : Type} {adj : α → α → Prop} {S : α → Prop} {c : α}

theorem OnlyGate.outside (h : OnlyGate adj S c) (hsym : ∀ u v, adj u v → adj v u) {x : α} {l : List α} (hw : ∀ p ∈ consec (x :: l), adj p.1 p.2)
    (hx : ¬ S x) (hc : c ∉ x :: l) : ∀ y ∈ x :: l, ¬ S y := by
  induction l generalizing x with
  | nil => intro y hy; rw [List.mem_singleton] at hy; exact hy ▸ hx
  | cons z l ih =>
    have hz : ¬ S z := fun hz => by
      have := h z x (hsym _ _ (hw (x, z) (by simp [consec]))) hz hx
      exact hc (by simp [this])
    intro y hy
    rcases List.mem_cons.1 hy with rfl | hy
    · exact hx
    · exact ih (fun p hp => hw p (mem_consec_cons.2 (Or.inr hp))) hz (fun h => hc (List.mem_cons_of_mem _ h)) y hy

/-- A path whose ends are in the part stays in it. -/
theorem OnlyGate.path (h : OnlyGate adj S c) (hsym : ∀ u v, adj u v → adj v u) {l : List α} (hw : ∀ p ∈ consec l, adj p.1 p.2) (hn : l.Nodup)
    (hx : ∀ x, l.head? = some x → S x) (hy : ∀ y, l.getLast? = some y → S y) : ∀ x ∈ l, S x := by
  induction l with
  | nil => simp
  | cons a l ih =>
    cases l with
    | nil => intro x hx'; rw [List.mem_singleton] at hx'; exact hx' ▸ hx a rfl
    | cons b l =>
      have hw' : ∀ p ∈ consec (b :: l), adj p.1 p.2 := fun p hp => hw p (mem_consec_cons.2 (Or.inr hp))
      rw [List.nodup_cons] at hn
      have hlast : ∀ y, (b :: l).getLast? = some y → S y := fun y h => hy y (by rw [List.getLast?_cons_cons]; exact h)
      have hb : S b := by
        by_contra hb
        have hac : a = c := h a b (hw (a, b) (by simp [consec])) (hx a rfl) hb
        have hout := h.outside hsym hw' hb (hac ▸ hn.1)
        have hmem := List.getLast_mem (l := b :: l) (by simp)
        exact hout _ hmem (hlast _ (List.getLast?_eq_some_getLast (by simp)))
      intro x hx'
      rcases List.mem_cons.1 hx' with rfl | hx'
      · exact hx x rfl
      · exact ih hw' hn.2 (fun x h => by simp at h; exact h ▸ hb) hlast x hx'

end walks

variable {g : Graph} {S : Nat → Prop} {c : Nat}

theorem adj_symm' (u v : Nat) (h : Adj g u v) : Adj g v u := h.symm

theorem OnlyGate.detour (h : OnlyGate (Adj g) S c) {u w : Nat} {X : List Nat} (hw : IsWalk g (u :: (X ++ [w]))) (hn : X.Nodup)
    (hu : u ∉ X) (hw' : w ∉ X) (huw : u ≠ w) (hSu : S u) (hSw : S w) : ∀ x ∈ X, S x := by
  have := h.path adj_symm' (l := u :: (X ++ [w])) hw (by
    rw [List.nodup_cons, List.nodup_append]
    refine ⟨by simp [hu, huw], hn, by simp, ?_⟩
    rintro a ha b hb rfl
    rw [List.mem_singleton] at hb
    exact hw' (hb ▸ ha)) (by simp [hSu]) (by
      intro y hy
      rw [← List.cons_append, List.getLast?_concat] at hy
      cases hy; exact hSw)
  intro x hx
  exact this x (by simp [hx])

/-- Two vertices of a tour that are not the two ends differ. -/
theorem ends_ne {r : Nat} {A Y B : List Nat} {u w : Nat} (ht : IsTour g r (A ++ u :: (Y ++ w :: B)))
    (hsk : Y.length + 1 < (A ++ u :: (Y ++ w :: B)).length - 1) : u ≠ w := by
  rintro rfl
  have hn := ht.nodup
  rcases List.eq_nil_or_concat B with rfl | ⟨B', b, rfl⟩
  · cases A with
    | nil => simp at hsk
    | cons a A =>
      have e : (a :: A ++ u :: (Y ++ [u])).dropLast = a :: A ++ u :: Y := by
        rw [show a :: A ++ u :: (Y ++ [u]) = (a :: A ++ u :: Y) ++ [u] by simp, List.dropLast_concat]
      rw [e] at hn
      obtain ⟨-, h2, -⟩ := isTour_iff'.1 ht
      obtain ⟨h1, -⟩ := isTour_iff'.1 ht
      rw [show a :: A ++ u :: (Y ++ [u]) = (a :: A ++ u :: Y) ++ [u] by simp, List.getLast?_concat] at h2
      simp at h1 h2
      rw [List.cons_append, List.nodup_cons] at hn
      exact hn.1 (by simp [h1, h2])
  · rw [show A ++ u :: (Y ++ u :: B'.concat b) = (A ++ u :: (Y ++ u :: B')) ++ [b] by simp, List.dropLast_concat, List.nodup_append] at hn
    have := hn.2.1
    rw [List.nodup_cons] at this
    exact this.1 (by simp)

theorem goodEntry_in (h : OnlyGate (Adj g) S c) {r : Nat} {t : List Nat} (ht : IsTour g r t) {prize : Nat → Int} {step : Nat} {depth : Int} {i : Nat}
    {p : List Nat} (hsk : step < t.length - 1) (hgood : GoodEntry g r t prize step depth i p) (hS : ∀ x ∈ t, S x) : ∀ x ∈ p, S x := by
  rcases hgood with ⟨-, A, u, Y, w, B, X, rfl, -, hY, rfl, -, hw, hn, hd, -⟩ | ⟨P, v, Q, u, R, rfl, -, -, rfl, -⟩
  · have hne : u ≠ w := ends_ne ht (by omega)
    have hu : S u := hS u (by simp)
    have hw' : S w := hS w (by simp)
    have := h.detour hw hn (fun e => hd u e (by simp)) (fun e => hd w e (by simp)) hne hu hw'
    intro x hx
    rcases List.mem_cons.1 hx with rfl | hx
    · exact hu
    · rcases List.mem_append.1 hx with hx | hx
      · exact this x hx
      · rw [List.mem_singleton] at hx; exact hx ▸ hw'
  · intro x hx
    refine hS x ?_
    simp at hx ⊢
    tauto

theorem swapPaths_mem {α : Type} [DecidableEq α] {tour p t' : List α} {i j : Nat} (h : swapPathsInTour tour p i j = .ok t') : ∀ x ∈ t', x ∈ tour ∨ x ∈ p := by
  rw [swapPathsInTour_eq] at h
  split at h
  · split at h
    · cases h
      intro x hx
      rcases List.mem_append.1 hx with hx | hx
      · rcases List.mem_append.1 hx with hx | hx
        · exact Or.inl (List.mem_of_mem_take hx)
        · exact Or.inr hx
      · exact Or.inl (List.mem_of_mem_drop hx)
    · cases h
  · cases tour with
    | nil => cases h
    | cons root tl =>
      simp only at h
      split at h
      · split at h
        · split at h
          · rename_i hr
            cases h
            intro x hx
            rcases List.mem_append.1 hx with hx | hx
            · rcases List.mem_append.1 hx with hx | hx
              · exact Or.inr ((List.dropWhile_sublist _).mem hx)
              · exact Or.inl (List.mem_of_mem_take (List.mem_of_mem_drop hx))
            · rcases List.mem_append.1 hx with hx | hx
              · exact Or.inr ((List.takeWhile_sublist _).mem hx)
              · rw [List.mem_singleton] at hx; exact Or.inl (by simp [hx])
          · cases h
        · cases h
      · cases h

variable {F : Type}

theorem pathExtensionLoop_in (h : OnlyGate (Adj g) S c) (O : FloatOps F) (hO : O.SignSound) (hg : g.WF) {r : Nat} (cost prize : Nat → Int)
    (hp : ∀ v, 0 ≤ prize v) (step depth : Int) (hs : 1 ≤ step) (rem : Nat) (first : Bool) (avg : Option F) (t t' : List Nat) (ht : IsTour g r t)
    (hr : pathExtensionLoop O g cost prize r step depth rem first avg t = .ok t') (hS : ∀ x ∈ t, S x) : ∀ x ∈ t', S x := by
  induction rem generalizing first avg t with
  | zero => rw [pathExtensionLoop] at hr; cases hr; exact hS
  | succ rem ih =>
    rw [pathExtensionLoop, if_neg ht.ne_nil] at hr
    cases hf : stepFits step t with
    | false => rw [hf, if_pos rfl] at hr; cases hr; exact hS
    | true =>
      rw [hf, if_neg (by simp)] at hr
      have hst := (stepFits_iff ht.ne_nil).1 hf
      obtain ⟨es, h1, h2, h3⟩ := findExtensionPaths_spec O hO hg ht cost prize step.toNat depth (by omega) hst.2
      rw [h1] at hr
      simp only [Res.ok_bind] at hr
      by_cases hn : numFeasibleExtensions (es.map (·.feasible)) > 0
      · obtain ⟨k, e, hk, hke, hfe⟩ := selected_entry O es hn
        have hk0 : ¬ ((k : Int) < 0) := by omega
        simp only [hn, if_true, hk, hk0, if_false, Int.toNat_natCast, hke] at hr
        have hgood := ((h3 k e hke).1 hfe).2
        have hnext : ∀ avgLoss : F, (do
            let tour' ← swapPathsInTour t e.path k (k + step.toNat)
            pathExtensionLoop O g cost prize r step depth rem false (some avgLoss) tour') = .ok t' → ∀ x ∈ t', S x := by
          intro avgLoss hr
          obtain ⟨t1, s1, s2, -⟩ := swap_nonneg ht hp hst.2 hgood
          rw [s1] at hr
          simp only [Res.ok_bind] at hr
          refine ih false (some avgLoss) t1 s2 hr fun x hx => ?_
          rcases swapPaths_mem s1 x hx with hx | hx
          · exact hS x hx
          · exact goodEntry_in h ht hst.2 hgood hS x hx
        cases avg with
        | none =>
          simp only at hr
          split at hr
          · exact hnext _ hr
          · cases hr; exact hS
        | some a =>
          simp only at hr
          split at hr
          · exact hnext _ hr
          · cases hr; exact hS
      · simp only [hn, if_false] at hr
        cases hr; exact hS

theorem pathExtensionUntilLoop_in (h : OnlyGate (Adj g) S c) (O : FloatOps F) (hO : O.SignSound) (hg : g.WF) {r : Nat} (cost prize : Nat → Int)
    (step depth : Int) (hs : 1 ≤ step) (rem : Nat) (t t' : List Nat) (ht : IsTour g r t)
    (hr : pathExtensionUntilLoop O g cost prize r step depth rem t = .ok t') (hS : ∀ x ∈ t, S x) : ∀ x ∈ t', S x := by
  induction rem generalizing t with
  | zero => rw [pathExtensionUntilLoop] at hr; cases hr; exact hS
  | succ rem ih =>
    rw [pathExtensionUntilLoop] at hr
    cases hf : stepFits step t with
    | false => rw [hf, if_pos rfl] at hr; cases hr; exact hS
    | true =>
      rw [hf, if_neg (by simp)] at hr
      have hst := (stepFits_iff ht.ne_nil).1 hf
      obtain ⟨es, h1, h2, h3⟩ := findExtensionPaths_spec O hO hg ht cost prize step.toNat depth (by omega) hst.2
      rw [h1] at hr
      simp only [Res.ok_bind] at hr
      by_cases hn : numFeasibleExtensions (es.map (·.feasible)) > 0
      · obtain ⟨k, e, hk, hke, hfe⟩ := selected_entry O es hn
        have hk0 : ¬ ((k : Int) < 0) := by omega
        simp only [hn, if_true, hk, hk0, if_false, Int.toNat_natCast, hke] at hr
        have hki : k < t.length - 1 := by
          have := (List.getElem?_eq_some_iff.1 hke).1; omega
        have hgood := ((h3 k e hke).1 hfe).2
        obtain ⟨t1, s1, s2, -⟩ := swap_mod ht hki hst.2 hgood
        rw [s1] at hr
        simp only [Res.ok_bind] at hr
        refine ih t1 s2 hr fun x hx => ?_
        rcases swapPaths_mem s1 x hx with hx | hx
        · exact hS x hx
        · exact goodEntry_in h ht hst.2 hgood hS x hx
      · simp only [hn, if_false] at hr
        cases hr; exact hS

theorem pathExtensionUntil_in (h : OnlyGate (Adj g) S c) (O : FloatOps F) (hO : O.SignSound) (hg : g.WF) {r : Nat} (cost prize : Nat → Int)
    (quota step depth : Int) (hs : 1 ≤ step) (t t' : List Nat) (ht : IsTour g r t)
    (hr : pathExtensionUntilPrizeFeasible O g t cost prize r quota step depth = .ok t') (hS : ∀ x ∈ t, S x) : ∀ x ∈ t', S x := by
  rw [pathExtensionUntilPrizeFeasible, totalPrizeOfTour_eq prize ht.ne_nil] at hr
  simp only [Res.ok_bind] at hr
  split at hr
  · exact pathExtensionUntilLoop_in h O hO hg cost prize step depth hs _ t t' ht hr hS
  · cases hr; exact hS

theorem gainSteps_in (h : OnlyGate (Adj g) S c) {P : List Nat → Nat → Nat → Nat → Prop} {r : Nat} {t t' : List Nat} (hs : GainSteps g P t t')
    (ht : IsTour g r t) (hlen : 3 ≤ t.length) (hS : ∀ x ∈ t, S x) : ∀ x ∈ t', S x := by
  induction hs with
  | refl t => exact hS
  | @step t t1 t' v a b hP hi hs ih =>
    have hst : GainStep g v t t1 := ⟨a, b, hi⟩
    have hvS : S v := by
      obtain ⟨A, B, rfl, rfl⟩ := hi.split
      have hne : a ≠ b := ends_ne (A := A) (Y := []) (B := B) ht (by simp at hlen ⊢; omega)
      refine h.detour (X := [v]) (u := a) (w := b) ?_ (by simp) ?_ ?_ hne (hS a (by simp)) (hS b (by simp)) v (by simp)
      · simpa using ⟨hi.left, hi.right⟩
      · intro e; rw [List.mem_singleton] at e; exact hi.new (by simp [e])
      · intro e; rw [List.mem_singleton] at e; exact hi.new (by simp [e])
    refine ih (hst.isTour ht) ?_ ?_
    · obtain ⟨A, B, rfl, rfl⟩ := hi.split
      simp at hlen ⊢; omega
    · intro x hx
      rcases (hst.mem_iff x).1 hx with rfl | hx
      · exact hvS
      · exact hS x hx

theorem reorder_mem {a root : Nat} {s : List Nat} (hs : IsTour g a s) (hr : root ∈ s) : ∀ x ∈ reorderTourFromRoot s root, x ∈ s := by
  have hcl : s.head? = s.getLast? := by
    obtain ⟨m, hm⟩ := hs.shape
    rw [hm, ← List.cons_append, List.getLast?_concat]; rfl
  obtain ⟨h1, h2, h3, h4, -⟩ := C01_reorder_is_rotation s root hcl hr
  intro x hx
  obtain ⟨Y, hY⟩ := List.getLast?_eq_some_iff.1 h2
  rw [hY] at hx
  rw [hY, List.dropLast_concat] at h4
  rcases List.mem_append.1 hx with hx | hx
  · exact List.dropLast_subset _ (h4.mem_iff.1 hx)
  · rw [List.mem_singleton] at hx; exact hx ▸ hr

theorem shortcut_in (h : OnlyGate (Adj g) S c) {prize : Nat → Int} {quota : Int} {root a : Nat} {t P X : List Nat} (ht : IsTour g a t)
    (hs : Shortcut (Adj g) prize quota root t P X) (hS : ∀ x ∈ t, S x) : ∀ x ∈ closeRun P X, S x := by
  obtain ⟨b, hb, -⟩ := hs.tour ht
  obtain ⟨w, ⟨hne, -, i, hi, hpre⟩, -⟩ := hs.run
  have hPt : ∀ x ∈ P, S x := by
    intro x hx
    refine hS x ?_
    have := hpre.subset (List.mem_append_left _ hx)
    rcases List.mem_append.1 this with h | h
    · exact List.mem_of_mem_drop h
    · exact List.mem_of_mem_tail h
  have htwo := hs.two
  obtain ⟨x, l, rfl⟩ := List.exists_cons_of_ne_nil hne
  rcases List.eq_nil_or_concat l with rfl | ⟨Y, y, rfl⟩
  · simp at htwo
  rw [List.concat_eq_append] at *
  have hn := hb.nodup
  have e : closeRun (x :: (Y ++ [y])) X = (x :: Y) ++ y :: (X ++ [x]) := by simp [closeRun]
  rw [e] at hb hn ⊢
  rw [show (x :: Y) ++ y :: (X ++ [x]) = ((x :: Y) ++ y :: X) ++ [x] by simp, List.dropLast_concat] at hn
  have hw : IsWalk g (y :: (X ++ [x])) := by
    have := hb.walk
    rw [isWalk_append] at this
    exact this.2
  have hyx : y ≠ x := by
    rintro rfl
    rw [List.cons_append, List.nodup_cons] at hn
    exact hn.1 (by simp)
  have hX := h.detour hw hs.nodup (fun e => hs.fresh y e (by simp)) (fun e => hs.fresh x e (by simp)) hyx (hPt y (by simp)) (hPt x (by simp))
  intro z hz
  simp only [List.cons_append, List.mem_cons, List.mem_append, List.not_mem_nil, or_false] at hz
  rcases hz with rfl | hz | rfl | hz | rfl
  · exact hPt _ (by simp)
  · exact hPt _ (by simp [hz])
  · exact hPt _ (by simp)
  · exact hX _ hz
  · exact hPt _ (by simp)

theorem collapse_in (h : OnlyGate (Adj g) S c) (hg : g.WF) {a root : Nat} {t t' : List Nat} (ht : IsTour g a t) (hroot : root ∈ t) {cost prize : Nat → Int}
    (hp : ∀ v, 0 ≤ prize v) {quota : Int} {useShortest : Bool} {pick : Nat → Pick} (hpick : ∀ i, (pick i).Heap)
    (hr : collapse g t cost prize quota root useShortest pick = .ok t') (hS : ∀ x ∈ t, S x) : ∀ x ∈ t', S x := by
  rcases C135_form g hg a t ht root cost prize hp quota useShortest pick hpick t' hr with rfl | ⟨P, X, hs, -, rfl⟩
  · exact fun x hx => hS x (reorder_mem ht hroot x hx)
  · obtain ⟨b, hb, hroot⟩ := hs.tour ht
    exact fun x hx => shortcut_in h ht hs hS x (reorder_mem hb hroot x hx)

theorem extendUntilFeasibleLoop_in (h : OnlyGate (Adj g) S c) (O : FloatOps F) (hO : O.SignSound) (hg : g.WF) {r : Nat} (cost prize : Nat → Int)
    (quota depth : Int) (rem : Nat) (step : Int) (hs : 1 ≤ step) (t t' : List Nat) (b : Bool) (ht : IsTour g r t)
    (hr : extendUntilFeasibleLoop O g cost prize quota r depth rem step t = .ok (t', b)) (hS : ∀ x ∈ t, S x) : ∀ x ∈ t', S x := by
  induction rem generalizing step t with
  | zero => rw [extendUntilFeasibleLoop] at hr; cases hr; exact hS
  | succ rem ih =>
    rw [extendUntilFeasibleLoop] at hr
    obtain ⟨t1, h1, h2, -⟩ := C15_until_feasible_tour O hO g hg r t ht cost prize quota step depth hs
    have hin := pathExtensionUntil_in h O hO hg cost prize quota step depth hs t t1 ht h1 hS
    rw [h1] at hr
    simp only [Res.ok_bind, totalPrizeOfTour_eq prize h2.ne_nil] at hr
    split at hr
    · cases hr; exact hin
    · exact ih (step + 1) (by omega) t1 h2 hr hin

theorem pingPongLoop_in (h : OnlyGate (Adj g) S c) (O : FloatOps F) (hO : O.SignSound) (hg : g.WF) {r : Nat} (cost prize : Nat → Int)
    (hp : ∀ v, 0 ≤ prize v) (quota depth : Int) (useShortest : Bool) {pick : Nat → Nat → Pick} (hpick : ∀ j i, (pick j i).Heap)
    (rem : Nat) (step : Int) (hs : 1 ≤ step) (t t' : List Nat) (k : Int) (ht : IsTour g r t) (hq : quota ≤ tourPrize prize t)
    (hr : pingPongLoop O g cost prize quota r useShortest pick depth rem step (t, k) = .ok t') (hS : ∀ x ∈ t, S x) : ∀ x ∈ t', S x := by
  induction rem generalizing step t k with
  | zero => rw [pingPongLoop] at hr; cases hr; exact hS
  | succ rem ih =>
    rw [pingPongLoop] at hr
    obtain ⟨t1, h1, h2, h3, -⟩ := C12_path_extension_tour O hO g hg r t ht cost prize hp step depth hs
    have hin := pathExtensionLoop_in h O hO hg cost prize hp step depth hs _ _ _ t t1 ht h1 hS
    rw [h1] at hr
    simp only [Res.ok_bind] at hr
    have hroot : r ∈ t1 := by obtain ⟨m, hm⟩ := h2.shape; rw [hm]; simp
    rcases collapse_spec' hg h2 cost prize hp quota useShortest (hpick rem) with ⟨r1, -⟩ | ⟨t2, r1, r2, -, r4, -⟩
    · rw [r1] at hr; cases hr
    · have hin2 := collapse_in h hg h2 hroot hp (hpick rem) r1 hin
      rw [r1] at hr
      simp only [Res.ok_bind, totalCost_of_isWalk hg cost r2.walk] at hr
      split at hr
      · rw [reorder_tour r2] at hr
        exact ih (step + 1) (by omega) t2 _ r2 (r4 (by omega)) hr hin2
      · exact ih (step + 1) (by omega) t _ ht hq hr hS

theorem pathExtensionCollapse_in (h : OnlyGate (Adj g) S c) (O : FloatOps F) (hO : O.SignSound) (hg : g.WF) {r : Nat} (cost prize : Nat → Int)
    (hp : ∀ v, 0 ≤ prize v) (quota : Int) (useShortest : Bool) {pick0 : Nat → Pick} {pick : Nat → Nat → Pick} (hpick0 : ∀ i, (pick0 i).Heap)
    (hpick : ∀ j i, (pick j i).Heap) (depth step : Int) (t t' : List Nat) (ht : IsTour g r t)
    (hr : pathExtensionCollapse O g t cost prize quota r useShortest pick0 pick depth step = .ok t') (hS : ∀ x ∈ t, S x) : ∀ x ∈ t', S x := by
  have main : ∀ s, IsTour g r s → quota ≤ tourPrize prize s → (∀ x ∈ s, S x) → (do
      let best ← collapse g s cost prize quota r useShortest pick0
      let bestCost ← totalCost g cost best
      let best := reorderTourFromRoot best r
      let best ← pingPongLoop O g cost prize quota r useShortest pick depth step.toNat 1 (best, bestCost)
      pure (reorderTourFromRoot best r) : Res (List Nat)) = .ok t' → ∀ x ∈ t', S x := by
    intro s hs hq hS hr
    have hroot : r ∈ s := by obtain ⟨m, hm⟩ := hs.shape; rw [hm]; simp
    rcases collapse_spec' hg hs cost prize hp quota useShortest hpick0 with ⟨h1, -⟩ | ⟨t1, h1, h2, h3, h4, h5⟩
    · rw [h1] at hr; cases hr
    · have hin := collapse_in h hg hs hroot hp hpick0 h1 hS
      rw [h1] at hr
      simp only [Res.ok_bind, totalCost_of_isWalk hg cost h2.walk, reorder_tour h2] at hr
      rcases pingPongLoop_spec O hO hg cost prize hp quota depth useShortest hpick step.toNat 1 (by omega) t1 h2 (h4 hq) with
        ⟨q1, -⟩ | ⟨t2, q1, q2, -⟩
      · rw [q1] at hr; cases hr
      · have hin2 := pingPongLoop_in h O hO hg cost prize hp quota depth useShortest hpick _ 1 (by omega) t1 t2 _ h2 (h4 hq) q1 hin
        rw [q1] at hr
        simp only [Res.ok_bind, reorder_tour q2] at hr
        cases hr; exact hin2
  rw [pathExtensionCollapse, totalPrizeOfTour_eq prize ht.ne_nil] at hr
  simp only [Res.ok_bind] at hr
  by_cases hq : tourPrize prize t ≥ quota
  · rw [if_pos hq] at hr
    exact main t ht hq hS hr
  · rw [if_neg hq] at hr
    obtain ⟨s, b, r1, r2, r3, -⟩ := extendUntilFeasibleLoop_spec O hO hg cost prize quota depth step.toNat 1 (by omega) t ht
    have hin := extendUntilFeasibleLoop_in h O hO hg cost prize quota depth _ 1 (by omega) t s b ht r1 hS
    rw [r1] at hr
    simp only [Res.ok_bind] at hr
    cases b with
    | false => cases hr; simp
    | true => exact main s r2 (r3 rfl) hin hr

end Pctsp
