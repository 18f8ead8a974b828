import Verif.Lemmas.SuurballeExact

/-!
# What the marks and the tree edges of the extraction add up to

The edges of the marked vertices and the tree edges, each tree edge taken as often as the traversals need it, form a flow of value two from
the source to the target.  On graphs with split vertices no tree edge is needed twice.
-/

set_option linter.unusedSectionVars false

namespace Pctsp

variable {V : Type} [LinearOrder V] {G : DiGraph V} {s : V} {dij : DijkstraOut V} {T : STree V}

/-! ## Paths in the tree -/

/-- The path between a vertex of a tree path and an end of it is a part of it. -/
theorem Sep.sub (h : IsDijkstra G s dij) {v b p x : V} (hp : p ∈ dij.distKeys) (hx : x ∈ dij.distKeys) (hb : Sep s dij b p x)
    (hv : Sep s dij v b p) : Sep s dij v p x := by
  refine ⟨?_, ?_⟩
  · rcases hv.1 with h1 | h1
    · exact hb.1.imp (fun h2 => h.path_trans hp h1 h2) (fun h2 => h.path_trans hx h1 h2)
    · exact .inl h1
  · rintro c hc ⟨h1, h2⟩
    have h3 : c ∉ dij.path b := fun hm => hv.2 c hc ⟨hm, h1⟩
    have key : ∀ z ∈ dij.distKeys, b ∈ dij.path z → c ∈ dij.path z → False := by
      intro z hz hbz hcz
      rcases h.path_total hz hcz hbz with h4 | h4
      · exact h3 h4
      · obtain ⟨d, hd, hd2⟩ := h.exists_child (h.key_of_mem hz hcz) h4 (by rintro rfl; exact h3 (h.mem_path_self (h.key_of_mem hz hcz)))
        exact hb.2 d hd ⟨h.path_trans hp hd2 h1, h.path_trans hx hd2 h2⟩
    exact hb.1.elim (fun h4 => key p hp h4 h1) (fun h4 => key x hx h4 h2)

theorem Sep.triangle (h : IsDijkstra G s dij) {v a b t : V} (hb : b ∈ dij.distKeys) (hs : Sep s dij v a t) : Sep s dij v b t ∨ Sep s dij v a b := by
  by_cases hn : Sep s dij v b t
  · exact .inl hn
  · exact .inr (hs.other h hb hn)

theorem Sep.convex (h : IsDijkstra G s dij) {v b q p x : V} (hp : p ∈ dij.distKeys) (hx : x ∈ dij.distKeys) (hb : Sep s dij b p x) (hq : Sep s dij q p x)
    (hv : Sep s dij v b q) : Sep s dij v p x := by
  rcases hv.triangle h hp with h1 | h1
  · exact hq.sub h hp hx h1.symm
  · exact hb.sub h hp hx h1

theorem Sep.key (h : IsDijkstra G s dij) {q p x : V} (hp : p ∈ dij.distKeys) (hx : x ∈ dij.distKeys) (hq : Sep s dij q p x) : q ∈ dij.distKeys :=
  hq.1.elim (fun h1 => h.key_of_mem hp h1) (fun h1 => h.key_of_mem hx h1)

/-! ## The chain of causes -/

/-- The edges `(pred x, x)` along the causes, from the target to the source. -/
inductive Chain (s : V) (dij : DijkstraOut V) : V → List (V × V) → Prop
  | nil : Chain s dij s []
  | cons {x p q : V} {L : List (V × V)} : Chain s dij q L → p ∈ dij.distKeys → x ∈ dij.distKeys → x ≠ s → Sep s dij q p x →
      (∀ v ∈ (L.map Prod.snd ++ [s]).tail, ¬ Sep s dij v p x) → Chain s dij x ((p, x) :: L)

/-- Whether `x` is below `b`. -/
def isBelow (dij : DijkstraOut V) (b x : V) : Int := if b ∈ dij.path x then 1 else 0

/-- How often the tree edge into `b` is needed. -/
def treeFlow (dij : DijkstraOut V) (L : List (V × V)) (x b : V) : Int :=
  (L.map fun e => isBelow dij b e.1 - isBelow dij b e.2).sum + 2 * isBelow dij b x

theorem treeFlow_cons (L : List (V × V)) (p x q b : V) :
    treeFlow dij ((p, x) :: L) x b = treeFlow dij L q b + isBelow dij b p + isBelow dij b x - 2 * isBelow dij b q := by
  simp only [treeFlow, List.map_cons, List.sum_cons]; omega

theorem Chain.key (h : IsDijkstra G s dij) {x : V} {L : List (V × V)} (hc : Chain s dij x L) : x ∈ dij.distKeys := by
  cases hc with
  | nil => exact h.source
  | cons _ _ h1 _ _ _ => exact h1

theorem isBelow_pos {b x : V} (h : b ∈ dij.path x) : isBelow dij b x = 1 := if_pos h
theorem isBelow_neg {b x : V} (h : b ∉ dij.path x) : isBelow dij b x = 0 := if_neg h

/-- Both ends below `b`: all between them is below `b`. -/
theorem Sep.below (h : IsDijkstra G s dij) {b q p x : V} (hp : p ∈ dij.distKeys) (hx : x ∈ dij.distKeys) (hq : Sep s dij q p x)
    (h1 : b ∈ dij.path p) (h2 : b ∈ dij.path x) : b ∈ dij.path q := by
  by_contra hno
  have key : ∀ z ∈ dij.distKeys, q ∈ dij.path z → b ∈ dij.path z → False := by
    intro z hz hqz hbz
    rcases h.path_total hz hqz hbz with h3 | h3
    · obtain ⟨d, hd, hd2⟩ := h.exists_child (h.key_of_mem hz hbz) h3 (by rintro rfl; exact hno (h.mem_path_self (h.key_of_mem hz hbz)))
      exact hq.2 d hd ⟨h.path_trans hp hd2 h1, h.path_trans hx hd2 h2⟩
    · exact hno h3
  exact hq.1.elim (fun h4 => key p hp h4 h1) (fun h4 => key x hx h4 h2)

theorem Sep.not_below (h : IsDijkstra G s dij) {b q p x : V} (hp : p ∈ dij.distKeys) (hx : x ∈ dij.distKeys) (hq : Sep s dij q p x)
    (h1 : b ∉ dij.path p) (h2 : b ∉ dij.path x) : b ∉ dij.path q := fun hm =>
  hq.1.elim (fun h4 => h1 (h.path_trans hp hm h4)) (fun h4 => h2 (h.path_trans hx hm h4))

/-- One end below `b`, the other not: `b` is between them. -/
theorem sep_of_below {b p x : V} (h : IsDijkstra G s dij) (hp : p ∈ dij.distKeys) (h1 : b ∈ dij.path x) (h2 : b ∉ dij.path p) : Sep s dij b p x :=
  ⟨.inr h1, fun _ hc hh => h2 (h.path_trans hp (hc.parent_mem h) hh.1)⟩

/-- And so is the parent of `b`. -/
theorem sep_parent_of_below {a b p x : V} (h : IsDijkstra G s dij) (hab : IsChild s dij a b) (hx : x ∈ dij.distKeys) (h1 : b ∈ dij.path x)
    (h2 : b ∉ dij.path p) : Sep s dij a p x := by
  refine ⟨.inr (h.path_trans hx (hab.parent_mem h) h1), ?_⟩
  rintro c hc ⟨h3, h4⟩
  have := hc.eq_of_mem h hab hx h4 h1
  subst this
  exact h2 h3

/-- As long as no earlier vertex of the chain is near, the tree edge into `b` is needed just for the target. -/
theorem Chain.flow_near (h : IsDijkstra G s dij) {x : V} {L : List (V × V)} (hc : Chain s dij x L) {a b : V} (hab : IsChild s dij a b)
    (hfar : ∀ v ∈ (L.map Prod.snd ++ [s]).tail, v ≠ a ∧ ¬ Sep s dij v b x) : treeFlow dij L x b = isBelow dij b x := by
  have hbk := hab.key
  induction hc with
  | nil =>
    have : b ∉ dij.path s := fun hm => hab.ne (h.path_source_only hm)
    simp [treeFlow, isBelow_neg this]
  | @cons x p q L hc hp hx hxs hq hfirst ih =>
    have hqk := hc.key h
    have hqm : q ∈ L.map Prod.snd ++ [s] := by
      cases hc with
      | nil => simp
      | cons _ _ _ _ _ _ => simp
    have htail : ∀ v ∈ (L.map Prod.snd ++ [s]).tail, v ∈ L.map Prod.snd ++ [s] := fun v hv => List.mem_of_mem_tail hv
    simp only [List.map_cons, List.cons_append, List.tail_cons] at hfar
    rw [treeFlow_cons L p x q b]
    by_cases hDx : b ∈ dij.path x
    · by_cases hDp : b ∈ dij.path p
      · have hDq := hq.below h hp hx hDp hDx
        rw [ih ?_, isBelow_pos hDx, isBelow_pos hDp, isBelow_pos hDq]
        · rfl
        · intro v hv
          refine ⟨(hfar v (htail v hv)).1, fun hs => ?_⟩
          rcases hs.triangle h hx with h1 | h1
          · exact hfirst v hv (hq.symm.sub h hx hp h1.symm).symm
          · exact (hfar v (htail v hv)).2 h1
      · have hDq : b ∉ dij.path q := by
          intro hm
          have hqx : q ∈ dij.path x := hq.1.resolve_left fun h1 => hDp (h.path_trans hp hm h1)
          refine (hfar q hqm).2 ⟨.inr hqx, ?_⟩
          rintro c hc' ⟨h3, _⟩
          exact hc'.not_mem h (h.path_trans hqk h3 hm)
        rw [ih ?_, isBelow_pos hDx, isBelow_neg hDp, isBelow_neg hDq]
        · rfl
        · intro v hv
          exact ⟨(hfar v (htail v hv)).1, fun hs => hfirst v hv (Sep.convex h hp hx (sep_of_below h hp hDx hDp) hq hs)⟩
    · by_cases hDp : b ∈ dij.path p
      · have hDq : b ∈ dij.path q := by
          by_contra hno
          refine (hfar q hqm).2 ⟨?_, ?_⟩
          · rcases hq.1 with h1 | h1
            · exact .inl ((h.path_total hp h1 hDp).resolve_right hno)
            · exact .inr h1
          · rintro c hc' ⟨h3, h4⟩
            exact hq.2 c hc' ⟨h.path_trans hp h3 hDp, h4⟩
        rw [ih ?_, isBelow_neg hDx, isBelow_pos hDp, isBelow_pos hDq]
        · rfl
        · intro v hv
          exact ⟨(hfar v (htail v hv)).1, fun hs => hfirst v hv (Sep.convex h hx hp (sep_of_below h hx hDp hDx) hq.symm hs).symm⟩
      · have hDq := hq.not_below h hp hx hDp hDx
        rw [ih ?_, isBelow_neg hDx, isBelow_neg hDp, isBelow_neg hDq]
        · rfl
        · intro v hv
          refine ⟨(hfar v (htail v hv)).1, fun hs => ?_⟩
          rcases hs.triangle h hx with h1 | h1
          · exact hfirst v hv (hq.symm.sub h hx hp h1.symm).symm
          · exact (hfar v (htail v hv)).2 h1

/-- No tree edge is needed twice, or backwards. -/
theorem Chain.flow_le (h : IsDijkstra G s dij) {x : V} {L : List (V × V)} (hc : Chain s dij x L) {a b : V} (hab : IsChild s dij a b) :
    0 ≤ treeFlow dij L x b ∧ treeFlow dij L x b ≤ 1 := by
  induction hc with
  | nil =>
    have : b ∉ dij.path s := fun hm => hab.ne (h.path_source_only hm)
    simp [treeFlow, isBelow_neg this]
  | @cons x p q L hc hp hx hxs hq hfirst ih =>
    rw [treeFlow_cons L p x q b]
    by_cases hDx : b ∈ dij.path x
    · by_cases hDp : b ∈ dij.path p
      · have hDq := hq.below h hp hx hDp hDx
        rw [isBelow_pos hDx, isBelow_pos hDp, isBelow_pos hDq]; omega
      · have := hc.flow_near h hab fun v hv =>
          ⟨by rintro rfl; exact hfirst v hv (sep_parent_of_below h hab hx hDx hDp),
            fun hs => hfirst v hv (Sep.convex h hp hx (sep_of_below h hp hDx hDp) hq hs)⟩
        rw [this, isBelow_pos hDx, isBelow_neg hDp]
        by_cases hDq : b ∈ dij.path q
        · rw [isBelow_pos hDq]; omega
        · rw [isBelow_neg hDq]; omega
    · by_cases hDp : b ∈ dij.path p
      · have := hc.flow_near h hab fun v hv =>
          ⟨by rintro rfl; exact hfirst v hv (sep_parent_of_below h hab hp hDp hDx).symm,
            fun hs => hfirst v hv (Sep.convex h hx hp (sep_of_below h hx hDp hDx) hq.symm hs).symm⟩
        rw [this, isBelow_neg hDx, isBelow_pos hDp]
        by_cases hDq : b ∈ dij.path q
        · rw [isBelow_pos hDq]; omega
        · rw [isBelow_neg hDq]; omega
      · have hDq := hq.not_below h hp hx hDp hDx
        rw [isBelow_neg hDx, isBelow_neg hDp, isBelow_neg hDq]; omega

/-! ## Conservation -/

theorem sum_ind_zero {l : List V} {f : V → Int} (h : ∀ c ∈ l, f c = 0) : (l.map f).sum = 0 := by
  induction l with
  | nil => rfl
  | cons a l ih =>
    rw [List.map_cons, List.sum_cons, h a List.mem_cons_self, ih fun c hc => h c (List.mem_cons_of_mem _ hc)]; rfl

theorem sum_ind_one {l : List V} {f : V → Int} {a : V} (hn : l.Nodup) (ha : a ∈ l) (h : ∀ c ∈ l, c ≠ a → f c = 0) : (l.map f).sum = f a := by
  rw [sum_erase f ha, sum_ind_zero, Int.add_zero]
  intro c hc
  rw [hn.mem_erase_iff] at hc
  exact h c hc.2 hc.1

/-- A vertex below `z` is `z` or below exactly one child of `z`. -/
theorem isBelow_kids (h : IsDijkstra G s dij) {z y : V} (hz : z ∈ dij.distKeys) (hy : y ∈ dij.distKeys) :
    isBelow dij z y = ind y z + ((treeSucc s dij.pathKeys dij.path z).map fun c => isBelow dij c y).sum := by
  by_cases e : y = z
  · subst e
    rw [isBelow_pos (h.mem_path_self hz), sum_ind_zero, ind, if_pos rfl]; rfl
    intro c hc
    exact isBelow_neg ((h.mem_treeSucc.1 hc).not_mem h)
  · rw [ind, if_neg e]
    by_cases hm : z ∈ dij.path y
    · obtain ⟨c, hc, hcy⟩ := h.exists_child hy hm (Ne.symm e)
      rw [isBelow_pos hm, sum_ind_one (a := c) (h.treeSucc_nodup z) (h.mem_treeSucc.2 hc), isBelow_pos hcy]; rfl
      intro d hd hne
      exact isBelow_neg fun hdy => hne ((h.mem_treeSucc.1 hd).eq_of_mem h hc hy hdy hcy)
    · rw [isBelow_neg hm, sum_ind_zero]; rfl
      intro c hc
      exact isBelow_neg fun hcy => hm (h.path_trans hy ((h.mem_treeSucc.1 hc).parent_mem h) hcy)

theorem sum_map_add' {l : List V} (f g : V → Int) : (l.map fun c => f c + g c).sum = (l.map f).sum + (l.map g).sum := by
  induction l with
  | nil => rfl
  | cons a l ih => simp only [List.map_cons, List.sum_cons, ih]; omega

theorem sum_map_mul' {l : List V} (k : Int) (f : V → Int) : (l.map fun c => k * f c).sum = k * (l.map f).sum := by
  induction l with
  | nil => simp
  | cons a l ih => simp only [List.map_cons, List.sum_cons, ih]; ring

theorem sum_map_zero' (l : List V) : (l.map fun _ => (0 : Int)).sum = 0 := sum_ind_zero fun _ _ => rfl

theorem treeFlow_conserve (h : IsDijkstra G s dij) {L : List (V × V)} {x z : V} (hL : ∀ e ∈ L, e.1 ∈ dij.distKeys ∧ e.2 ∈ dij.distKeys)
    (hx : x ∈ dij.distKeys) (hz : z ∈ dij.distKeys) :
    treeFlow dij L x z = ((treeSucc s dij.pathKeys dij.path z).map fun c => treeFlow dij L x c).sum +
      ((L.map fun e => ind e.1 z).sum - (L.map fun e => ind e.2 z).sum) + 2 * ind x z := by
  have h1 : (L.map fun e => isBelow dij z e.1 - isBelow dij z e.2).sum =
      ((treeSucc s dij.pathKeys dij.path z).map fun c => (L.map fun e => isBelow dij c e.1 - isBelow dij c e.2).sum).sum +
        ((L.map fun e => ind e.1 z).sum - (L.map fun e => ind e.2 z).sum) := by
    induction L with
    | nil => simp
    | cons e L ih =>
      have ih := ih fun d hd => hL d (List.mem_cons_of_mem _ hd)
      have he := hL e List.mem_cons_self
      have e1 := isBelow_kids h hz he.1
      have e2 := isBelow_kids h hz he.2
      have e3 : ((treeSucc s dij.pathKeys dij.path z).map fun c => ((e :: L).map fun e => isBelow dij c e.1 - isBelow dij c e.2).sum).sum =
          ((treeSucc s dij.pathKeys dij.path z).map fun c => isBelow dij c e.1).sum
          + (-1) * ((treeSucc s dij.pathKeys dij.path z).map fun c => isBelow dij c e.2).sum
          + ((treeSucc s dij.pathKeys dij.path z).map fun c => (L.map fun e => isBelow dij c e.1 - isBelow dij c e.2).sum).sum := by
        rw [← sum_map_mul', ← sum_map_add', ← sum_map_add']
        congr 1
        apply List.map_congr_left
        intro c _
        rw [List.map_cons, List.sum_cons]; omega
      rw [e3]
      simp only [List.map_cons, List.sum_cons]
      omega
  have h2 := isBelow_kids h hz hx
  simp only [treeFlow]
  rw [sum_map_add', sum_map_mul']
  omega

/-! ## The chain that the marks record -/

theorem nodup_split_unique {l1 l2 m1 m2 : List V} {q : V} (hn : (l1 ++ q :: l2).Nodup) (e : l1 ++ q :: l2 = m1 ++ q :: m2) : l1 = m1 := by
  induction l1 generalizing m1 with
  | nil =>
    cases m1 with
    | nil => rfl
    | cons a m1 =>
      simp at e
      obtain ⟨rfl, rfl⟩ := e
      simp at hn
  | cons b l1 ih =>
    cases m1 with
    | nil =>
      simp at e
      obtain ⟨rfl, rfl⟩ := e
      simp at hn
    | cons a m1 =>
      simp at e
      obtain ⟨rfl, e⟩ := e
      rw [ih (List.nodup_cons.1 hn).2 e]

theorem markCauses_chain (h : IsDijkstra G s dij) {st : SState V} {ord : List V} (hX : XInv G s dij T ord st) :
    ∀ (fuel : Nat) (l1 l2 : List V) (x : V) (mark M : List V), ord = l1 ++ x :: l2 → (∀ y ∈ mark, y ∉ l1 ++ [x]) →
      markCauses s st fuel x mark = .ok M →
      ∃ L, Chain s dij x L ∧ M = (L.map Prod.snd).reverse ++ mark ∧ (∀ e ∈ L, st.pred e.2 = some e.1) ∧
        (∀ v ∈ (L.map Prod.snd ++ [s]).tail, v ∈ l1) ∧ (L.map Prod.snd).Nodup ∧ (∀ y ∈ L.map Prod.snd, y ∈ l1 ++ [x] ∧ Markable G s dij st y) := by
  have hd := hX.dinv
  intro fuel
  induction fuel with
  | zero => intro l1 l2 x mark M _ _ h1; rw [markCauses] at h1; cases h1
  | succ fuel ih =>
    intro l1 l2 x mark M hord hdis hok
    by_cases hx : x = s
    · subst hx
      rw [markCauses, if_pos rfl] at hok
      injection hok with hok
      exact ⟨[], .nil, by simp [hok], by simp, by simp, by simp, by simp⟩
    · have hxo : x ∈ ord := by rw [hord]; simp
      obtain ⟨q, p, c1, c2, c3, c4, c5, c6, c7, c8⟩ := hd.cert x hx (hd.fin x hxo)
      obtain ⟨q', p', m1, m2, f1, f2, f3, f4, f5⟩ := hX.first x hx (hd.fin x hxo)
      rw [c1] at f1; injection f1 with f1; subst f1
      rw [c2] at f2; injection f2 with f2; subst f2
      have hq := c8 l1 l2 hord
      have hno := hd.nodup
      rw [hord, List.nodup_append] at hno
      have hxl : x ∉ l1 := fun hm => hno.2.2 x hm x List.mem_cons_self rfl
      have hxq : x ≠ q := by rintro rfl; exact hxl hq
      have hxm : x ∉ mark := fun hm => hdis x hm (by simp)
      rw [markCauses, if_neg hx] at hok
      simp only [if_neg hxm, c1, if_neg hxq] at hok
      obtain ⟨a, b, hab⟩ := List.append_of_mem hq
      have hord' : ord = a ++ q :: (b ++ x :: l2) := by rw [hord, hab]; simp
      obtain ⟨L, g1, g2, g3, g4, g5, g6⟩ := ih a (b ++ x :: l2) q (x :: mark) M hord' (by
        intro y hy hym
        have hyl : y ∈ l1 := by
          rw [hab]
          rcases List.mem_append.1 hym with h' | h'
          · exact List.mem_append_left _ h'
          · rw [List.mem_singleton] at h'; subst h'; simp
        rcases List.mem_cons.1 hy with rfl | hy
        · exact hxl hyl
        · exact hdis y hy (List.mem_append_left _ hyl)) hok
      have ham : a = m1 := nodup_split_unique (hord' ▸ hd.nodup) (hord' ▸ f4)
      have hxk := (h.relaxed p c4 x c5).1
      refine ⟨(p, x) :: L, .cons g1 c4 hxk hx f3 (fun v hv => f5 v (ham ▸ g4 v hv)), by rw [g2]; simp, ?_, ?_, ?_, ?_⟩
      · intro e he
        rcases List.mem_cons.1 he with rfl | he
        · exact c2
        · exact g3 e he
      · simp only [List.map_cons, List.cons_append, List.tail_cons]
        intro v hv
        have : v = q ∨ v ∈ (L.map Prod.snd ++ [s]).tail := by
          cases g1 with
          | nil => simpa using hv
          | cons _ _ _ _ _ _ => simpa using hv
        rcases this with rfl | hv
        · exact hq
        · rw [hab]; exact List.mem_append_left _ (g4 v hv)
      · rw [List.map_cons, List.nodup_cons]
        refine ⟨fun hm => hxl ?_, g5⟩
        rw [hab]
        have := (g6 x hm).1
        simp only [List.mem_append, List.mem_cons, List.not_mem_nil, or_false] at this ⊢
        rcases this with h1 | h1 <;> simp [h1]
      · intro y hy
        rw [List.map_cons, List.mem_cons] at hy
        rcases hy with rfl | hy
        · exact ⟨by simp, hx, p, c2, c4, c5, c6⟩
        · obtain ⟨h1, h2⟩ := g6 y hy
          refine ⟨?_, h2⟩
          rw [hab]
          simp only [List.mem_append, List.mem_cons, List.not_mem_nil, or_false] at h1 ⊢
          rcases h1 with h1 | h1 <;> simp [h1]

/-! ## The traversals -/

/-- How many marked vertices have `z` as their predecessor. -/
def outMarks (st : SState V) (mark : List V) (z : V) : Int := (mark.map fun y => if st.pred y = some z then 1 else 0).sum

/-- What leaves `z`. -/
def outFlow (s : V) (dij : DijkstraOut V) (st : SState V) (mark : List V) (r : V → Int) (z : V) : Int :=
  outMarks st mark z + ((treeSucc s dij.pathKeys dij.path z).map r).sum

/-- The marks `mark` and the tree edges `r` carry one unit to `x` and what is still pending. -/
structure Balanced (s : V) (dij : DijkstraOut V) (st : SState V) (pend : V → Int) (mark : List V) (r : V → Int) (x : V) : Prop where
  nonneg : ∀ a b, IsChild s dij a b → 0 ≤ r b
  eq : ∀ z ∈ dij.distKeys, z ≠ s → (if z ∈ mark then 1 else 0) + r z = outFlow s dij st mark r z + ind x z + pend z

theorem outMarks_nonneg (st : SState V) (mark : List V) (z : V) : 0 ≤ outMarks st mark z := by
  rw [outMarks]
  induction mark with
  | nil => simp
  | cons a l ih => rw [List.map_cons, List.sum_cons]; split <;> omega

theorem outFlow_nonneg (h : IsDijkstra G s dij) {st : SState V} {mark : List V} {r : V → Int} (hr : ∀ a b, IsChild s dij a b → 0 ≤ r b) (z : V) :
    0 ≤ outFlow s dij st mark r z := by
  have h1 := outMarks_nonneg st mark z
  have h2 : ∀ l : List V, (∀ c ∈ l, 0 ≤ r c) → 0 ≤ (l.map r).sum := by
    intro l
    induction l with
    | nil => intro _; simp
    | cons a l ih =>
      intro hl
      have := ih fun c hc => hl c (List.mem_cons_of_mem _ hc)
      have := hl a List.mem_cons_self
      rw [List.map_cons, List.sum_cons]; omega
  have := h2 (treeSucc s dij.pathKeys dij.path z) fun c hc => hr z c (h.mem_treeSucc.1 hc)
  rw [outFlow]; omega

theorem outMarks_erase {st : SState V} {mark : List V} {x p z : V} (hx : x ∈ mark) (hp : st.pred x = some p) :
    outMarks st mark z = outMarks st (mark.erase x) z + ind p z := by
  rw [outMarks, sum_erase _ hx, outMarks, hp]
  simp only [Option.some.injEq, ind]; omega

theorem kids_setAt (h : IsDijkstra G s dij) {r : V → Int} {u x z : V} (hux : IsChild s dij u x) :
    ((treeSucc s dij.pathKeys dij.path z).map (setAt r x (r x - 1))).sum = ((treeSucc s dij.pathKeys dij.path z).map r).sum - ind u z := by
  by_cases hm : x ∈ treeSucc s dij.pathKeys dij.path z
  · have := (h.mem_treeSucc.1 hm).unique h hux
    subst this
    rw [sum_erase _ hm, sum_erase r hm, setAt_same, ind, if_pos rfl]
    have : (((treeSucc s dij.pathKeys dij.path z).erase x).map (setAt r x (r x - 1))) = ((treeSucc s dij.pathKeys dij.path z).erase x).map r := by
      apply List.map_congr_left
      intro c hc
      rw [setAt_other]
      rintro rfl
      exact ((h.treeSucc_nodup z).mem_erase_iff.1 hc).1 rfl
    rw [this]; omega
  · have hne : u ≠ z := by rintro rfl; exact hm (h.mem_treeSucc.2 hux)
    rw [ind, if_neg hne]
    have : ((treeSucc s dij.pathKeys dij.path z).map (setAt r x (r x - 1))) = (treeSucc s dij.pathKeys dij.path z).map r := by
      apply List.map_congr_left
      intro c hc
      rw [setAt_other]
      rintro rfl
      exact hm hc
    rw [this]; omega

theorem traversePath_flow (h : IsDijkstra G s dij) (hT : TreeOK G s dij T) {st : SState V} {pend : V → Int} (hpend : ∀ z, 0 ≤ pend z) :
    ∀ (fuel : Nat) (x : V) (mark path : List V) (r : V → Int) (mark' path' : List V), x ∈ dij.distKeys → mark.Nodup →
      (∀ y ∈ mark, Markable G s dij st y) → Balanced s dij st pend mark r x → traversePath T s st fuel x mark path = .ok (mark', path') →
      ∃ w r', path' = w ++ path ∧ Balanced s dij st pend mark' r' s ∧ (∀ a b, IsChild s dij a b → ((consec (w ++ [x])).count (a, b) : Int) = r b - r' b) ∧
        s ∉ (w ++ [x]).tail ∧ (∀ z ∈ w, z ≠ s → 0 < outFlow s dij st mark r z) ∧
        (∀ z ∈ dij.distKeys, outFlow s dij st mark' r' z ≤ outFlow s dij st mark r z) ∧ mark'.Nodup ∧ ∀ y ∈ mark', y ∈ mark := by
  intro fuel
  induction fuel with
  | zero => intro x mark path r mark' path' _ _ _ _ h1; rw [traversePath] at h1; cases h1
  | succ fuel ih =>
    intro x mark path r mark' path' hx hn hmk hbal hok
    rw [traversePath] at hok
    by_cases hxs : x = s
    · subst hxs
      rw [if_pos rfl] at hok
      injection hok with hok
      injection hok with e1 e2
      subst e1 e2
      exact ⟨[], r, rfl, hbal, by simp, by simp, by simp, fun z _ => le_rfl, hn, fun y hy => hy⟩
    · rw [if_neg hxs] at hok
      by_cases hxm : x ∈ mark
      · rw [if_pos hxm] at hok
        obtain ⟨_, p, hp1, hp2, hp3, hp4⟩ := hmk x hxm
        simp only [hp1] at hok
        have hout : ∀ z, outFlow s dij st mark r z = outFlow s dij st (mark.erase x) r z + ind p z := by
          intro z
          rw [outFlow, outMarks_erase hxm hp1, outFlow]; omega
        have hbal' : Balanced s dij st pend (mark.erase x) r p := by
          refine ⟨hbal.nonneg, ?_⟩
          intro z hz hzs
          have h1 := hbal.eq z hz hzs
          rw [hout z] at h1
          by_cases e : z = x
          · subst e
            have e2 : ind z z = 1 := if_pos rfl
            rw [if_pos hxm, e2] at h1
            rw [if_neg fun hm => (hn.mem_erase_iff.1 hm).1 rfl]
            omega
          · have e2 : ind x z = 0 := if_neg (Ne.symm e)
            have e3 : (z ∈ mark.erase x) ↔ z ∈ mark := List.mem_erase_of_ne e
            simp only [e3]
            omega
        obtain ⟨w, r', g1, g2, g3, g4, g5, g6, g7, g8⟩ := ih p (mark.erase x) (p :: path) r mark' path' hp2 (hn.erase _)
          (fun y hy => hmk y (List.mem_of_mem_erase hy)) hbal' hok
        refine ⟨w ++ [p], r', by rw [g1]; simp, g2, ?_, ?_, ?_, ?_, g7, fun y hy => List.mem_of_mem_erase (g8 y hy)⟩
        · intro a b hab
          rw [List.append_assoc, List.singleton_append, consec_append, List.count_append]
          have : List.count (a, b) (consec [p, x]) = 0 := by
            rw [List.count_eq_zero]
            intro hm
            simp at hm
            obtain ⟨rfl, rfl⟩ := hm
            exact hp4 hab
          rw [this, Nat.add_zero]; exact g3 a b hab
        · cases w with
          | nil => simpa using Ne.symm hxs
          | cons c w =>
            simp only [List.cons_append, List.tail_cons, List.mem_append, List.mem_singleton, not_or] at g4 ⊢
            exact ⟨g4, Ne.symm hxs⟩
        · intro z hz hzs
          have h2 := hout z
          have h3 : 0 ≤ ind p z := by rw [ind]; split <;> omega
          rcases List.mem_append.1 hz with hz | hz
          · have := g5 z hz hzs; omega
          · rw [List.mem_singleton] at hz
            subst hz
            have h4 := outFlow_nonneg h (st := st) (mark := mark.erase x) hbal.nonneg z
            rw [ind, if_pos rfl] at h2
            omega
        · intro z hz
          have h2 := hout z
          have h3 : 0 ≤ ind p z := by rw [ind]; split <;> omega
          have := g6 z hz
          omega
      · rw [if_neg hxm] at hok
        obtain ⟨u, hu, hu1, hu2⟩ := h.exists_parent hx hxs
        rw [hT.predsSome u x hu] at hok
        simp only at hok
        have hrx : 1 ≤ r x := by
          have h1 := hbal.eq x hx hxs
          rw [if_neg hxm, ind, if_pos rfl] at h1
          have h2 := outFlow_nonneg h (st := st) (mark := mark) hbal.nonneg x
          have h3 := hpend x
          omega
        have hout : ∀ z, outFlow s dij st mark r z = outFlow s dij st mark (setAt r x (r x - 1)) z + ind u z := by
          intro z
          rw [outFlow, outFlow, kids_setAt h hu]; omega
        have hnn : ∀ a b, IsChild s dij a b → 0 ≤ setAt r x (r x - 1) b := by
          intro a b hab
          by_cases e : b = x
          · subst e; rw [setAt_same]; omega
          · rw [setAt_other _ _ e]; exact hbal.nonneg a b hab
        have hbal' : Balanced s dij st pend mark (setAt r x (r x - 1)) u := by
          refine ⟨hnn, ?_⟩
          intro z hz hzs
          have h1 := hbal.eq z hz hzs
          rw [hout z] at h1
          by_cases e : z = x
          · subst e
            have e2 : ind z z = 1 := if_pos rfl
            rw [e2] at h1
            rw [setAt_same]
            omega
          · have e2 : ind x z = 0 := if_neg (Ne.symm e)
            rw [setAt_other _ _ e]
            omega
        obtain ⟨w, r', g1, g2, g3, g4, g5, g6, g7, g8⟩ := ih u mark (u :: path) (setAt r x (r x - 1)) mark' path' hu.parentKey hn hmk hbal' hok
        refine ⟨w ++ [u], r', by rw [g1]; simp, g2, ?_, ?_, ?_, ?_, g7, g8⟩
        · intro a b hab
          rw [List.append_assoc, List.singleton_append, consec_append, List.count_append]
          have h1 := g3 a b hab
          by_cases e : b = x
          · subst e
            have := hab.unique h hu
            subst this
            rw [setAt_same] at h1
            simp only [consec_cons_cons, consec_singleton, List.count_singleton_self]
            push_cast
            omega
          · rw [setAt_other _ _ e] at h1
            have : List.count (a, b) (consec [u, x]) = 0 := by
              rw [List.count_eq_zero]
              intro hm
              simp at hm
              exact e hm.2
            rw [this, Nat.add_zero]; exact h1
        · cases w with
          | nil => simpa using Ne.symm hxs
          | cons c w =>
            simp only [List.cons_append, List.tail_cons, List.mem_append, List.mem_singleton, not_or] at g4 ⊢
            exact ⟨g4, Ne.symm hxs⟩
        · intro z hz hzs
          have h2 := hout z
          have h3 : 0 ≤ ind u z := by rw [ind]; split <;> omega
          rcases List.mem_append.1 hz with hz | hz
          · have := g5 z hz hzs; omega
          · rw [List.mem_singleton] at hz
            subst hz
            have h4 := outFlow_nonneg h (st := st) (mark := mark) hnn z
            rw [ind, if_pos rfl] at h2
            omega
        · intro z hz
          have h2 := hout z
          have h3 : 0 ≤ ind u z := by rw [ind]; split <;> omega
          have := g6 z hz
          omega

/-! ## The extraction as a whole -/

theorem sum_fst {st : SState V} {L : List (V × V)} {z : V} (hL : ∀ e ∈ L, st.pred e.2 = some e.1) :
    ((L.map Prod.snd).map fun y => if st.pred y = some z then (1 : Int) else 0).sum = (L.map fun e => ind e.1 z).sum := by
  rw [List.map_map]
  congr 1
  apply List.map_congr_left
  intro e he
  simp only [Function.comp, hL e he, Option.some.injEq, ind]

theorem sum_snd {l : List V} {z : V} (hn : l.Nodup) : (l.map fun y => ind y z).sum = if z ∈ l then 1 else 0 := by
  by_cases hm : z ∈ l
  · rw [sum_ind_one (f := fun y => ind y z) (a := z) hn hm fun c _ hc => if_neg hc, if_pos hm]; exact if_pos rfl
  · rw [if_neg hm, sum_ind_zero]
    intro c hc
    refine if_neg ?_
    rintro rfl
    exact hm hc

theorem Chain.keys {x : V} {L : List (V × V)} (hc : Chain s dij x L) : ∀ e ∈ L, e.1 ∈ dij.distKeys ∧ e.2 ∈ dij.distKeys := by
  induction hc with
  | nil => simp
  | cons _ hp hx _ _ _ ih =>
    intro e he
    rcases List.mem_cons.1 he with rfl | he
    · exact ⟨hp, hx⟩
    · exact ih e he

/-- On a graph with split vertices the two walks have no common edge, visit the source just at the start and the target just at the end. -/
theorem extractPaths_disjoint (hg : G.WF) (h : IsDijkstra G s dij) (hT : TreeOK G s dij T) (hsp : G.SplitLike s) {st : SState V}
    (hr : Relation.ReflTransGen (Turn s dij T) (initState G dij T) st) (hh : st.heap = []) {t : V} (ht : t ∈ dij.distKeys) (hts : s ≠ t)
    (hfin : st.tent t ≠ maxsize) {fuel : Nat} {p q : List V} (hok : extractPaths T st fuel s t = .ok (p, q))
    (hcount : ∀ e, ¬ IsChild s dij e.1 e.2 → (consec p ++ consec q).count e ≤ 1) :
    (consec p ++ consec q).Nodup ∧ s ∉ p.tail ∧ s ∉ q.tail ∧ t ∉ p.dropLast ∧ t ∉ q.dropLast := by
  obtain ⟨ord, hX⟩ := suurballe_xinv hg h hT hsp hr
  have hd := hX.dinv
  have htord : t ∈ ord := by
    by_contra hno
    have := hd.queued t ht hfin hno
    rw [hh] at this
    simp at this
  obtain ⟨l1, l2, hl⟩ := List.append_of_mem htord
  rw [extractPaths, if_neg hts, if_neg hfin, Res.bind_eq_ok] at hok
  obtain ⟨M, hM, hok⟩ := hok
  rw [Res.bind_eq_ok] at hok
  obtain ⟨⟨M1, p'⟩, h1, hok⟩ := hok
  rw [Res.bind_eq_ok] at hok
  obtain ⟨⟨M2, q'⟩, h2, hok⟩ := hok
  injection hok with hok
  injection hok with e1 e2
  subst e1 e2
  obtain ⟨L, c1, c2, c3, _, hLn, hLm⟩ := markCauses_chain h hX fuel l1 l2 t [] M hl (by simp) hM
  rw [List.append_nil] at c2
  have hMn : M.Nodup := by rw [c2, List.nodup_reverse]; exact hLn
  have hMm : ∀ y ∈ M, Markable G s dij st y := fun y hy => (hLm y (by rw [c2, List.mem_reverse] at hy; exact hy)).2
  have hbal : Balanced s dij st (fun z => ind t z) M (treeFlow dij L t) t := by
    refine ⟨fun a b hab => (c1.flow_le h hab).1, ?_⟩
    intro z hz hzs
    have h3 := treeFlow_conserve h c1.keys ht hz
    change treeFlow dij L t z = ((treeSucc s dij.pathKeys dij.path z).map (treeFlow dij L t)).sum + _ + _ at h3
    have h4 : outMarks st M z = (L.map fun e => ind e.1 z).sum := by
      rw [← sum_fst c3, outMarks, c2]
      exact ((List.reverse_perm _).map _).sum_eq
    have h5 : (if z ∈ M then (1 : Int) else 0) = (L.map fun e => ind e.2 z).sum := by
      have := sum_snd (z := z) hLn
      rw [List.map_map] at this
      rw [c2]
      simp only [List.mem_reverse]
      exact this.symm
    rw [outFlow, h4, h5]
    omega
  have hpn : ∀ z, 0 ≤ ind t z := by intro z; rw [ind]; split <;> omega
  obtain ⟨w1, r1, a1, a2, a3, a4, a5, a6, a7, a8⟩ := traversePath_flow h hT hpn fuel t M [t] _ M1 p' ht hMn hMm hbal h1
  have hbal2 : Balanced s dij st (fun _ => 0) M1 r1 t := by
    refine ⟨a2.nonneg, ?_⟩
    intro z hz hzs
    have h3 := a2.eq z hz hzs
    have h4 : ind s z = 0 := if_neg (Ne.symm hzs)
    omega
  obtain ⟨w2, r2, b1, b2, b3, b4, b5, _, _, _⟩ := traversePath_flow h hT (fun _ => le_rfl) fuel t M1 [t] _ M2 q' ht a7 (fun y hy => hMm y (a8 y hy)) hbal2 h2
  obtain ⟨u, hu, -⟩ := h.exists_parent ht (Ne.symm hts)
  have hout : outFlow s dij st M (treeFlow dij L t) t ≤ 0 := by
    have h3 := hbal.eq t ht (Ne.symm hts)
    have h4 := (c1.flow_le h hu).2
    have h5 : ind t t = 1 := if_pos rfl
    rw [h5] at h3
    have h6 : (if t ∈ M then (1 : Int) else 0) ≤ 1 := by split <;> omega
    omega
  subst a1 b1
  refine ⟨?_, a4, b4, ?_, ?_⟩
  · rw [List.nodup_iff_count_le_one]
    intro e
    by_cases hch : IsChild s dij e.1 e.2
    · have h3 := a3 e.1 e.2 hch
      have h4 := b3 e.1 e.2 hch
      have h5 := b2.nonneg e.1 e.2 hch
      have h6 := (c1.flow_le h hch).2
      rw [List.count_append]
      change (List.count e _ : Int) = _ at h3 h4
      omega
    · exact hcount e hch
  · rw [List.dropLast_concat]
    intro hm
    have := a5 t hm (Ne.symm hts)
    omega
  · rw [List.dropLast_concat]
    intro hm
    have h3 := b5 t hm (Ne.symm hts)
    have h4 := a6 t ht
    omega

end Pctsp
