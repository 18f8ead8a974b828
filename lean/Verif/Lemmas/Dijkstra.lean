import Verif.Model.Dijkstra
import Verif.Spec.Dist
import Verif.Lemmas.BfsPath
import Verif.Lemmas.Subpath

/-! Helper lemmas: Dijkstra's algorithm. -/

namespace Pctsp

/-- The heap returns a queued vertex of least distance. -/
def Pick.Heap (pick : Pick) : Prop := ∀ f d q, q ≠ [] → pick f d q ∈ q ∧
  ∀ x ∈ q, ∀ dp dx, d (pick f d q) = some dp → d x = some dx → dp ≤ dx

theorem mem_outEdges {g : Graph} {u e v : Nat} : (e, v) ∈ g.outEdges u ↔ EdgeBetween g e u v := by
  unfold Graph.outEdges EdgeBetween
  simp only [List.mem_flatMap, List.mem_map, Prod.mk.injEq, Prod.exists]
  constructor
  · rintro ⟨a, b, i, hi, w, hw, rfl, rfl⟩
    have hget : g.edges[i]? = some (a, b) := by
      have := List.mem_zipIdx_iff_getElem?.1 hi
      simpa using this
    rw [hget]
    simp only [Graph.nbrsOf, List.mem_append] at hw
    rcases hw with hw | hw
    · split at hw
      · simp at hw; left; simp_all
      · simp at hw
    · split at hw
      · simp at hw; right; simp_all
      · simp at hw
  · rintro (h | h)
    · exact ⟨u, v, e, List.mem_zipIdx_iff_getElem?.2 (by simpa using h), v, by simp [Graph.nbrsOf], rfl, rfl⟩
    · exact ⟨v, u, e, List.mem_zipIdx_iff_getElem?.2 (by simpa using h), v, by simp [Graph.nbrsOf], rfl, rfl⟩

theorem EdgeBetween.lt {g : Graph} (hg : g.WF) {e u v : Nat} (h : EdgeBetween g e u v) : u < g.n ∧ v < g.n := by
  rcases h with h | h
  · have := hg _ (List.mem_of_getElem? h); exact this
  · have := hg _ (List.mem_of_getElem? h); exact ⟨this.2, this.1⟩

theorem EdgeBetween.adj {g : Graph} {e u v : Nat} (h : EdgeBetween g e u v) : Adj g u v := by
  rcases h with h | h
  · exact Or.inl (List.mem_of_getElem? h)
  · exact Or.inr (List.mem_of_getElem? h)

/-- Invariant of the search.  `ord` are the vertices taken from the queue, `cur` the one being processed, `path` the tree
paths. -/
structure DijInv (g : Graph) (cost : Nat → Int) (mark : Nat → Bool) (s : Nat) (ord : List Nat) (cur : Option Nat)
    (path : Nat → List Nat) (st : DijState) : Prop where
  gray : ∀ v, st.color v = .gray ↔ v ∈ st.queue ∨ cur = some v
  white : ∀ v, st.color v = .white → v ∉ ord
  black : ∀ v, st.color v = .black → v ∈ ord ∨ mark v = true
  disj : ∀ v ∈ ord, v ∉ st.queue
  qnodup : st.queue.Nodup
  onodup : ord.Nodup
  disc : ∀ v, (v ∈ ord ∨ v ∈ st.queue) ↔ st.dist v ≠ none
  lt : ∀ v, st.dist v ≠ none → v < g.n ∧ mark v = false
  root : st.dist s = some 0 ∧ st.pred s = s ∧ path s = [s]
  tree : ∀ v, st.dist v ≠ none → v ≠ s → st.pred v ∈ ord ∧ st.pred v ≠ v ∧ path v = path (st.pred v) ++ [v] ∧ Adj g (st.pred v) v
  nodup : ∀ v, st.dist v ≠ none → (path v).Nodup
  last : ∀ v, st.dist v ≠ none → (path v).getLast? = some v
  head : ∀ v, st.dist v ≠ none → (path v).head? = some s
  sub : ∀ v, st.dist v ≠ none → ∀ x ∈ path v, x = v ∨ x ∈ ord
  reach : ∀ v d, st.dist v = some d → Reaches g cost mark s v d
  curOrd : ∀ u, cur = some u → u ∈ ord
  order : ∀ x ∈ ord, ∀ y ∈ st.queue, ∀ dx dy, st.dist x = some dx → st.dist y = some dy → dx ≤ dy
  closed : ∀ x ∈ ord, cur ≠ some x → ∀ e v, EdgeBetween g e x v → mark v = false → ∀ dx, st.dist x = some dx →
    ∃ dv, st.dist v = some dv ∧ dv ≤ dx + cost e

/-- One relaxation of a vertex that has not been taken from the queue. -/
theorem DijInv.relax {g : Graph} (hg : g.WF) {cost : Nat → Int} {mark : Nat → Bool} {s u : Nat} {ord : List Nat} {path : Nat → List Nat}
    {st : DijState} (h : DijInv g cost mark s ord (some u) path st) {du : Int} (hdu : st.dist u = some du)
    (hmax : ∀ x ∈ ord, ∀ dx, st.dist x = some dx → dx ≤ du) (hs : s ∈ ord)
    {e v : Nat} (he : EdgeBetween g e u v) (hc : 0 ≤ cost e) (hm : mark v = false) (hv : v ∉ ord)
    (color' : Nat → Color) (queue' : List Nat)
    (hcase : (color' = upd st.color v .gray ∧ queue' = st.queue ++ [v] ∧ st.color v = .white) ∨
      (color' = st.color ∧ queue' = st.queue ∧ v ∈ st.queue ∧ ∃ dv, st.dist v = some dv ∧ du + cost e ≤ dv)) :
    DijInv g cost mark s ord (some u) (upd path v (path u ++ [v]))
      { dist := upd st.dist v (some (du + cost e)), pred := upd st.pred v u, color := color', queue := queue' } := by
  have huo : u ∈ ord := h.curOrd u rfl
  have huv : u ≠ v := by rintro rfl; exact hv huo
  have hsv : s ≠ v := by rintro rfl; exact hv hs
  have hqmem : ∀ x, x ∈ queue' ↔ x ∈ st.queue ∨ x = v := by
    intro x
    rcases hcase with ⟨-, rfl, -⟩ | ⟨-, rfl, hq, -⟩
    · simp
    · constructor
      · exact Or.inl
      · rintro (h | rfl)
        · exact h
        · exact hq
  have hdne : ∀ x, x ≠ v → upd st.dist v (some (du + cost e)) x = st.dist x := fun x hx => by simp [upd, hx]
  have hpu : ∀ x ∈ path u, x ∈ ord := by
    intro x hx
    rcases h.sub u (by simp [hdu]) x hx with rfl | h'
    · exact huo
    · exact h'
  have hordne : ∀ x ∈ ord, x ≠ v := fun x hx e => hv (e ▸ hx)
  refine ⟨?_, ?_, ?_, ?_, ?_, h.onodup, ?_, ?_, ?_, ?_, ?_, ?_, ?_, ?_, ?_, h.curOrd, ?_, ?_⟩
  · intro x
    show color' x = .gray ↔ x ∈ queue' ∨ some u = some x
    rw [hqmem]
    rcases hcase with ⟨rfl, -, -⟩ | ⟨rfl, -, hq, -⟩
    · by_cases hx : x = v
      · subst hx; simp [upd]
      · simp only [upd, hx, if_false, or_false]; exact h.gray x
    · rw [h.gray x]
      constructor
      · rintro (h | h)
        · exact Or.inl (Or.inl h)
        · exact Or.inr h
      · rintro ((h | rfl) | h)
        · exact Or.inl h
        · exact Or.inl hq
        · exact Or.inr h
  · intro x hx
    rcases hcase with ⟨rfl, -, -⟩ | ⟨rfl, -, -⟩
    · by_cases hxv : x = v
      · subst hxv; exact hv
      · simp only [upd, hxv, if_false] at hx; exact h.white x hx
    · exact h.white x hx
  · intro x hx
    rcases hcase with ⟨rfl, -, -⟩ | ⟨rfl, -, -⟩
    · by_cases hxv : x = v
      · subst hxv; simp [upd] at hx
      · simp only [upd, hxv, if_false] at hx; exact h.black x hx
    · exact h.black x hx
  · intro x hx hq
    rcases (hqmem x).1 hq with hq | rfl
    · exact h.disj x hx hq
    · exact hv hx
  · rcases hcase with ⟨-, rfl, hw⟩ | ⟨-, rfl, -⟩
    · have : v ∉ st.queue := by
        intro hq
        have := (h.gray v).2 (Or.inl hq)
        rw [hw] at this; simp at this
      show (st.queue ++ [v]).Nodup
      rw [List.nodup_append]
      refine ⟨h.qnodup, by simp, ?_⟩
      intro a ha b hb
      simp at hb; subst hb
      rintro rfl; exact this ha
    · exact h.qnodup
  · intro x
    show (x ∈ ord ∨ x ∈ queue') ↔ _
    rw [hqmem]
    by_cases hxv : x = v
    · subst hxv; simp [upd]
    · simp only [upd, hxv, if_false, or_false]; exact h.disc x
  · intro x hx
    by_cases hxv : x = v
    · subst hxv; exact ⟨(he.lt hg).2, hm⟩
    · simp only [upd, hxv, if_false] at hx; exact h.lt x hx
  · simp only [upd, hsv, if_false]; exact h.root
  · intro x hx hxs
    by_cases hxv : x = v
    · subst hxv
      simp only [upd, if_true, huv, if_false]
      exact ⟨huo, huv, trivial, he.adj⟩
    · simp only [upd, hxv, if_false] at hx ⊢
      obtain ⟨h1, h2, h3, h4⟩ := h.tree x hx hxs
      rw [if_neg (hordne _ h1)]
      exact ⟨h1, h2, h3, h4⟩
  · intro x hx
    by_cases hxv : x = v
    · subst hxv
      simp only [upd, if_true]
      rw [List.nodup_append]
      refine ⟨h.nodup u (by simp [hdu]), by simp, ?_⟩
      intro a ha b hb
      simp at hb; subst hb
      rintro rfl; exact hv (hpu a ha)
    · simp only [upd, hxv, if_false] at hx ⊢; exact h.nodup x hx
  · intro x hx
    by_cases hxv : x = v
    · subst hxv; simp [upd]
    · simp only [upd, hxv, if_false] at hx ⊢; exact h.last x hx
  · intro x hx
    by_cases hxv : x = v
    · subst hxv
      simp only [upd, if_true]
      rw [List.head?_append, h.head u (by simp [hdu])]; rfl
    · simp only [upd, hxv, if_false] at hx ⊢; exact h.head x hx
  · intro x hx y hy
    by_cases hxv : x = v
    · subst hxv
      simp only [upd, if_true, List.mem_append, List.mem_singleton] at hy
      rcases hy with hy | hy
      · exact Or.inr (hpu y hy)
      · exact Or.inl hy
    · simp only [upd, hxv, if_false] at hx hy; exact h.sub x hx y hy
  · intro x d hx
    by_cases hxv : x = v
    · subst hxv
      simp [upd] at hx
      subst hx
      exact Reaches.step (h.reach u du hdu) he hm
    · simp only [upd, hxv, if_false] at hx; exact h.reach x d hx
  · intro x hx y hy dx dy hdx hdy
    simp only at hdx hdy hy
    rw [hdne x (hordne x hx)] at hdx
    by_cases hyv : y = v
    · subst hyv
      simp [upd] at hdy
      have := hmax x hx dx hdx
      omega
    · rw [hdne y hyv] at hdy
      rcases (hqmem y).1 hy with hy | hy
      · exact h.order x hx y hy dx dy hdx hdy
      · exact absurd hy hyv
  · intro x hx hcur e' w he' hmw dx hdx
    simp only at hdx
    rw [hdne x (hordne x hx)] at hdx
    obtain ⟨dw, h1, h2⟩ := h.closed x hx hcur e' w he' hmw dx hdx
    by_cases hwv : w = v
    · subst hwv
      refine ⟨du + cost e, by simp [upd], ?_⟩
      rcases hcase with ⟨-, -, hw⟩ | ⟨-, -, -, dv, h3, h4⟩
      · exfalso
        have hd := (h.disc w).2 (by simp [h1])
        rcases hd with hd | hd
        · exact hv hd
        · have := (h.gray w).2 (Or.inl hd)
          rw [hw] at this; simp at this
      · rw [h1] at h3; simp at h3; omega
    · exact ⟨dw, by simp only; rw [hdne w hwv]; exact h1, h2⟩

/-- Painting a marked vertex black changes nothing that matters. -/
theorem DijInv.paint {g : Graph} {cost : Nat → Int} {mark : Nat → Bool} {s : Nat} {ord : List Nat} {cur : Option Nat}
    {path : Nat → List Nat} {st : DijState} (h : DijInv g cost mark s ord cur path st) {v : Nat} (hm : mark v = true) :
    DijInv g cost mark s ord cur path { st with color := upd st.color v .black } := by
  have hd : st.dist v = none := by
    cases e : st.dist v with
    | none => rfl
    | some d => have := (h.lt v (by simp [e])).2; rw [hm] at this; simp at this
  have hno : v ∉ ord ∧ v ∉ st.queue := by
    have := h.disc v
    rw [hd] at this
    simp at this
    exact this
  refine ⟨?_, ?_, ?_, h.disj, h.qnodup, h.onodup, h.disc, h.lt, h.root, h.tree, h.nodup, h.last, h.head, h.sub, h.reach, h.curOrd,
    h.order, h.closed⟩
  · intro x
    by_cases hx : x = v
    · subst hx
      simp only [upd, if_true]
      constructor
      · intro h; simp at h
      · rintro (h' | h')
        · exact absurd h' hno.2
        · exact absurd (h.curOrd x h') hno.1
    · simp only [upd, hx, if_false]; exact h.gray x
  · intro x hx
    by_cases hxv : x = v
    · subst hxv; exact hno.1
    · simp only [upd, hxv, if_false] at hx; exact h.white x hx
  · intro x hx
    by_cases hxv : x = v
    · subst hxv; exact Or.inr hm
    · simp only [upd, hxv, if_false] at hx; exact h.black x hx

/-- The loop over the out-edges of `u`. -/
theorem relaxEdges_spec {g : Graph} (hg : g.WF) {cost : Nat → Int} {mark : Nat → Bool} {s u : Nat} {ord : List Nat} (hs : s ∈ ord)
    (l : List (Nat × Nat)) (hl : ∀ p ∈ l, EdgeBetween g p.1 u p.2) {du : Int} {path : Nat → List Nat} {st : DijState}
    (h : DijInv g cost mark s ord (some u) path st) (hdu : st.dist u = some du)
    (hmax : ∀ x ∈ ord, ∀ dx, st.dist x = some dx → dx ≤ du) :
    (relaxEdges cost mark u du l st = .throw .negativeEdge ∧ ∃ p ∈ l, cost p.1 < 0) ∨
    (∃ st' path', relaxEdges cost mark u du l st = .ok st' ∧ DijInv g cost mark s ord (some u) path' st' ∧ st'.dist u = some du ∧
      (∀ x ∈ ord, st'.dist x = st.dist x) ∧ (∀ x, st.dist x ≠ none → st'.dist x ≠ none) ∧
      (∀ x dx, st.dist x = some dx → ∃ dx', st'.dist x = some dx' ∧ dx' ≤ dx) ∧
      ∀ p ∈ l, 0 ≤ cost p.1 ∧ (mark p.2 = false → ∃ dv, st'.dist p.2 = some dv ∧ dv ≤ du + cost p.1)) := by
  induction l generalizing path st with
  | nil => exact Or.inr ⟨st, path, rfl, h, hdu, fun _ _ => rfl, fun _ h => h, fun x dx h => ⟨dx, h, by omega⟩, by simp⟩
  | cons p l ih =>
    obtain ⟨e, v⟩ := p
    have he : EdgeBetween g e u v := hl (e, v) (by simp)
    have hl' : ∀ p ∈ l, EdgeBetween g p.1 u p.2 := fun p hp => hl p (List.mem_cons_of_mem _ hp)
    rw [relaxEdges]
    by_cases hc : cost e < 0
    · rw [if_pos hc]; exact Or.inl ⟨rfl, (e, v), by simp, hc⟩
    rw [if_neg hc]
    simp only
    -- the common continuation
    have cont : ∀ (st1 : DijState) (path1 : Nat → List Nat), DijInv g cost mark s ord (some u) path1 st1 → st1.dist u = some du →
        (∀ x ∈ ord, st1.dist x = st.dist x) → (∀ x dx, st.dist x = some dx → ∃ dx', st1.dist x = some dx' ∧ dx' ≤ dx) →
        (mark v = false → ∃ dv, st1.dist v = some dv ∧ dv ≤ du + cost e) →
        (relaxEdges cost mark u du l st1 = .throw .negativeEdge ∧ ∃ p ∈ (e, v) :: l, cost p.1 < 0) ∨
        (∃ st' path', relaxEdges cost mark u du l st1 = .ok st' ∧ DijInv g cost mark s ord (some u) path' st' ∧ st'.dist u = some du ∧
          (∀ x ∈ ord, st'.dist x = st.dist x) ∧ (∀ x, st.dist x ≠ none → st'.dist x ≠ none) ∧
          (∀ x dx, st.dist x = some dx → ∃ dx', st'.dist x = some dx' ∧ dx' ≤ dx) ∧
          ∀ p ∈ (e, v) :: l, 0 ≤ cost p.1 ∧ (mark p.2 = false → ∃ dv, st'.dist p.2 = some dv ∧ dv ≤ du + cost p.1)) := by
      intro st1 path1 h1 h2 h3 h4 h5
      rcases ih hl' h1 h2 (fun x hx dx hdx => hmax x hx dx (by rw [← h3 x hx]; exact hdx)) with
        ⟨r1, p, hp, hpc⟩ | ⟨st', path', r1, r2, r3, r4, r5, r6, r7⟩
      · exact Or.inl ⟨r1, p, List.mem_cons_of_mem _ hp, hpc⟩
      · refine Or.inr ⟨st', path', r1, r2, r3, fun x hx => by rw [r4 x hx, h3 x hx], ?_, ?_, ?_⟩
        · intro x hx
          apply r5
          cases hd : st.dist x with
          | none => exact absurd hd hx
          | some dx => obtain ⟨dx', q, -⟩ := h4 x dx hd; simp [q]
        · intro x dx hdx
          obtain ⟨dx', q1, q2⟩ := h4 x dx hdx
          obtain ⟨dx'', q3, q4⟩ := r6 x dx' q1
          exact ⟨dx'', q3, by omega⟩
        · intro p hp
          rcases List.mem_cons.1 hp with rfl | hp
          · refine ⟨by simp only; omega, fun hm => ?_⟩
            obtain ⟨dv, q1, q2⟩ := h5 hm
            obtain ⟨dv', q3, q4⟩ := r6 v dv q1
            exact ⟨dv', q3, by simp only; omega⟩
          · exact r7 p hp
    cases hm : mark v with
    | true =>
      have hp := h.paint hm
      simp only [if_true, upd]
      exact cont _ path hp hdu (fun _ _ => rfl) (fun x dx h => ⟨dx, h, by omega⟩) (by simp [hm])
    | false =>
      simp only [Bool.false_eq_true, if_false]
      have hupdle : ∀ dv0, st.dist v = some dv0 ∨ st.dist v = none → (∀ dv, st.dist v = some dv → du + cost e ≤ dv) →
          ∀ x dx, st.dist x = some dx → ∃ dx', upd st.dist v (some (du + cost e)) x = some dx' ∧ dx' ≤ dx := by
        intro dv0 _ hle x dx hdx
        by_cases hx : x = v
        · subst hx; exact ⟨du + cost e, by simp [upd], hle dx hdx⟩
        · exact ⟨dx, by simp [upd, hx, hdx], by omega⟩
      have hupdord : v ∉ ord → ∀ x ∈ ord, upd st.dist v (some (du + cost e)) x = st.dist x := by
        intro hv x hx
        have : x ≠ v := fun e => hv (e ▸ hx)
        simp [upd, this]
      cases hcol : st.color v with
      | white =>
        simp only
        have hv := h.white v hcol
        have hnone : st.dist v = none := by
          cases hd : st.dist v with
          | none => rfl
          | some d =>
            rcases (h.disc v).2 (by simp [hd]) with h' | h'
            · exact absurd h' hv
            · have := (h.gray v).2 (Or.inl h'); rw [hcol] at this; simp at this
        have hr := h.relax hg hdu hmax hs he (by omega) hm hv (upd st.color v .gray) (st.queue ++ [v]) (Or.inl ⟨rfl, rfl, hcol⟩)
        have huv : u ≠ v := by rintro rfl; exact hv (h.curOrd u rfl)
        exact cont _ _ hr (by simp [upd, huv, hdu]) (hupdord hv) (hupdle 0 (Or.inr hnone) (by simp [hnone]))
          (fun _ => ⟨du + cost e, by simp [upd], by omega⟩)
      | gray =>
        simp only
        have hdisc : st.dist v ≠ none := by
          rcases (h.gray v).1 hcol with h' | h'
          · exact (h.disc v).1 (Or.inr h')
          · exact (h.disc v).1 (Or.inl (h.curOrd v h'))
        cases hd : st.dist v with
        | none => exact absurd hd hdisc
        | some dv =>
          simp only
          by_cases hlt : du + cost e < dv
          · rw [if_pos hlt]
            have hq : v ∈ st.queue := by
              rcases (h.gray v).1 hcol with h' | h'
              · exact h'
              · simp at h'; subst h'
                rw [hdu] at hd; simp at hd; omega
            have hv : v ∉ ord := fun hv => h.disj v hv hq
            have hr := h.relax hg hdu hmax hs he (by omega) hm hv st.color st.queue (Or.inr ⟨rfl, rfl, hq, dv, hd, by omega⟩)
            have huv : u ≠ v := by rintro rfl; exact hv (h.curOrd u rfl)
            exact cont _ _ hr (by simp [upd, huv, hdu]) (hupdord hv)
              (hupdle dv (Or.inl hd) (by intro x hx; rw [hd] at hx; simp at hx; omega))
              (fun _ => ⟨du + cost e, by simp [upd], by omega⟩)
          · rw [if_neg hlt]
            exact cont _ _ h hdu (fun _ _ => rfl) (fun x dx h => ⟨dx, h, by omega⟩) (fun _ => ⟨dv, hd, by omega⟩)
      | black =>
        simp only
        refine cont _ _ h hdu (fun _ _ => rfl) (fun x dx h => ⟨dx, h, by omega⟩) (fun _ => ?_)
        rcases h.black v hcol with hv | hv
        · cases hd : st.dist v with
          | none => exact absurd hd ((h.disc v).1 (Or.inl hv))
          | some dv => exact ⟨dv, rfl, by have := hmax v hv dv hd; omega⟩
        · rw [hm] at hv; simp at hv

/-- What is known when the search stops. -/
structure DijRes (g : Graph) (cost : Nat → Int) (mark : Nat → Bool) (s : Nat) (target : Option Nat) (found : Bool) (st : DijState) : Prop where
  inv : ∃ ord path, DijInv g cost mark s ord none path st ∧ s ∈ ord ∧
    (found = true → ∃ t, target = some t ∧ t ∈ ord ∧
      ∀ x ∈ ord, ∀ dx dt, st.dist x = some dx → st.dist t = some dt → dx ≤ dt) ∧
    (found = false → st.queue = [] ∧ ∀ t, target = some t → t ∉ ord)

theorem dijkstraLoop_spec {g : Graph} (hg : g.WF) {cost : Nat → Int} {mark : Nat → Bool} {s : Nat} {pick : Pick} (hpick : pick.Heap)
    (target : Option Nat) (fuel : Nat) (ord : List Nat) (path : Nat → List Nat) (st : DijState)
    (h : DijInv g cost mark s ord none path st) (hs : s ∈ ord ∨ (ord = [] ∧ st.queue = [s]))
    (hf : g.n + 1 ≤ fuel + ord.length) (hlen : ord.length ≤ g.n) (ht : ∀ t, target = some t → t ∉ ord) :
    (dijkstraLoop g cost mark target pick fuel st = .throw .negativeEdge ∧
      ∃ e u v, EdgeBetween g e u v ∧ cost e < 0 ∧ ∃ d, Reaches g cost mark s u d) ∨
    ∃ found st', dijkstraLoop g cost mark target pick fuel st = .ok (found, st') ∧ DijRes g cost mark s target found st' := by
  induction fuel generalizing ord path st with
  | zero => omega
  | succ fuel ih =>
    rw [dijkstraLoop]
    by_cases hq : st.queue = []
    · rw [if_pos hq]
      refine Or.inr ⟨false, st, rfl, ⟨ord, path, h, ?_, by simp, fun _ => ⟨hq, ht⟩⟩⟩
      rcases hs with hs | ⟨-, hs⟩
      · exact hs
      · rw [hq] at hs; simp at hs
    · rw [if_neg hq]
      simp only
      obtain ⟨hpm, hpl⟩ := hpick fuel st.dist st.queue hq
      generalize hu : pick fuel st.dist st.queue = u at *
      have hud : st.dist u ≠ none := (h.disc u).1 (Or.inr hpm)
      cases hdu : st.dist u with
      | none => exact absurd hdu hud
      | some du =>
        simp only
        have huord : u ∉ ord := fun hx => h.disj u hx hpm
        have hord' : (ord ++ [u]).length ≤ g.n := by
          refine nodup_length_le ?_ ?_
          · rw [List.nodup_append]
            refine ⟨h.onodup, by simp, ?_⟩
            intro a ha b hb; simp at hb; subst hb
            rintro rfl; exact huord ha
          · intro x hx
            simp at hx
            rcases hx with hx | rfl
            · exact (h.lt x ((h.disc x).1 (Or.inl hx))).1
            · exact (h.lt x hud).1
        have hmem' : ∀ x, x ∈ st.queue.erase u ↔ x ∈ st.queue ∧ x ≠ u := by
          intro x
          rw [h.qnodup.mem_erase_iff]; tauto
        have hs' : s ∈ ord ++ [u] := by
          rcases hs with hs | ⟨-, hs⟩
          · simp [hs]
          · rw [hs] at hpm; simp at hpm; simp [hpm]
        have h' : DijInv g cost mark s (ord ++ [u]) (some u) path { st with queue := st.queue.erase u } := by
          refine ⟨?_, ?_, ?_, ?_, h.qnodup.erase u, ?_, ?_, h.lt, h.root, ?_, h.nodup, h.last, h.head, ?_, h.reach, ?_, ?_, ?_⟩
          · intro v
            show st.color v = .gray ↔ v ∈ st.queue.erase u ∨ some u = some v
            rw [h.gray v, hmem']
            simp only [reduceCtorEq, or_false, Option.some.injEq]
            constructor
            · intro hv
              by_cases e : u = v
              · exact Or.inr e
              · exact Or.inl ⟨hv, fun e' => e e'.symm⟩
            · rintro (hv | rfl)
              · exact hv.1
              · exact hpm
          · intro v hv hvo
            simp at hvo
            rcases hvo with hvo | rfl
            · exact h.white v hv hvo
            · have := (h.gray v).2 (Or.inl hpm)
              simp only at hv
              rw [hv] at this; simp at this
          · intro v hv
            rcases h.black v hv with h1 | h1
            · exact Or.inl (by simp [h1])
            · exact Or.inr h1
          · intro v hv hvq
            rw [hmem'] at hvq
            simp at hv
            rcases hv with hv | rfl
            · exact h.disj v hv hvq.1
            · exact hvq.2 rfl
          · rw [List.nodup_append]
            refine ⟨h.onodup, by simp, ?_⟩
            intro a ha b hb; simp at hb; subst hb
            rintro rfl; exact huord ha
          · intro v
            show (v ∈ ord ++ [u] ∨ v ∈ st.queue.erase u) ↔ _
            rw [hmem']
            rw [← h.disc v]
            simp only [List.mem_append, List.mem_singleton]
            by_cases e : v = u
            · subst e; simp [hpm]
            · simp [e]
          · intro v hv hvs
            obtain ⟨a1, a2⟩ := h.tree v hv hvs
            exact ⟨by simp [a1], a2⟩
          · intro v hv x hx
            rcases h.sub v hv x hx with h1 | h1
            · exact Or.inl h1
            · exact Or.inr (by simp [h1])
          · intro v hv; simp at hv; simp [hv]
          · intro x hx y hy dx dy hdx hdy
            rw [hmem'] at hy
            simp at hx
            rcases hx with hx | rfl
            · exact h.order x hx y hy.1 dx dy hdx hdy
            · exact hpl y hy.1 dx dy hdx hdy
          · intro x hx hcur e v he hm dx hdx
            simp at hx
            rcases hx with hx | rfl
            · exact h.closed x hx (by simp) e v he hm dx hdx
            · exact absurd rfl hcur
        have hmax : ∀ x ∈ ord ++ [u], ∀ dx, st.dist x = some dx → dx ≤ du := by
          intro x hx dx hdx
          simp at hx
          rcases hx with hx | rfl
          · exact h.order x hx u hpm dx du hdx hdu
          · rw [hdu] at hdx; simp at hdx; omega
        rcases relaxEdges_spec hg hs' (g.outEdges u) (fun p hp => mem_outEdges.1 hp) h' hdu hmax with
          ⟨r1, p, hp, hpc⟩ | ⟨st1, path1, r1, r2, r3, r4, r5, r6, r7⟩
        · rw [r1]
          exact Or.inl ⟨rfl, p.1, u, p.2, mem_outEdges.1 hp, hpc, du, h.reach u du hdu⟩
        · rw [r1]
          simp only [Res.ok_bind]
          have hfin : DijInv g cost mark s (ord ++ [u]) none path1 { st1 with color := upd st1.color u .black } := by
            refine ⟨?_, ?_, ?_, r2.disj, r2.qnodup, r2.onodup, r2.disc, r2.lt, r2.root, r2.tree, r2.nodup, r2.last, r2.head, r2.sub, r2.reach,
              by simp, r2.order, ?_⟩
            · intro v
              by_cases hv : v = u
              · subst hv
                have : v ∉ st1.queue := r2.disj v (by simp)
                simp [upd, this]
              · simp only [upd, hv, if_false]
                rw [r2.gray v]
                simp only [Option.some.injEq, reduceCtorEq, or_false]
                constructor
                · rintro (h1 | h1)
                  · exact h1
                  · exact absurd h1.symm hv
                · exact Or.inl
            · intro v hv
              by_cases hvu : v = u
              · subst hvu; simp [upd] at hv
              · simp only [upd, hvu, if_false] at hv; exact r2.white v hv
            · intro v hv
              by_cases hvu : v = u
              · subst hvu; exact Or.inl (by simp)
              · simp only [upd, hvu, if_false] at hv; exact r2.black v hv
            · intro x hx _ e v he hm dx hdx
              by_cases hxu : x = u
              · subst hxu
                simp only at hdx
                rw [r3] at hdx
                simp at hdx; subst hdx
                exact (r7 (e, v) (mem_outEdges.2 he)).2 hm
              · exact r2.closed x hx (by simpa using fun e => hxu e.symm) e v he hm dx hdx
          by_cases htu : target = some u
          · rw [if_pos htu]
            refine Or.inr ⟨true, _, rfl, ⟨ord ++ [u], path1, hfin, hs', fun _ => ⟨u, htu, by simp, ?_⟩, by simp⟩⟩
            intro x hx dx dt hdx hdt
            simp only at hdx hdt
            rw [r4 x hx] at hdx
            rw [r3] at hdt
            simp at hdt; subst hdt
            exact hmax x hx dx hdx
          · rw [if_neg htu]
            refine ih (ord ++ [u]) path1 _ hfin (Or.inl hs') (by simp; omega) hord' ?_
            intro t htt hto
            simp at hto
            rcases hto with hto | rfl
            · exact ht t htt hto
            · exact htu htt

/-- Climbing the predecessor table from a discovered vertex gives its tree path. -/
theorem DijInv.climb {g : Graph} {cost : Nat → Int} {mark : Nat → Bool} {s : Nat} {ord : List Nat} {cur : Option Nat}
    {path : Nat → List Nat} {st : DijState} (h : DijInv g cost mark s ord cur path st) (fuel v : Nat) (rest : List Nat)
    (hv : st.dist v ≠ none) (hf : (path v).length ≤ fuel + 1) : climb st.pred fuel v (v :: rest) = path v ++ rest := by
  induction fuel generalizing v rest with
  | zero =>
    by_cases hvs : v = s
    · subst hvs; rw [h.root.2.2]; rfl
    · obtain ⟨h1, -, h3, -⟩ := h.tree v hv hvs
      have hp : path (st.pred v) ≠ [] := by
        intro e
        have := h.last _ ((h.disc _).1 (Or.inl h1))
        rw [e] at this; simp at this
      rw [h3] at hf
      exact absurd (by simpa using hf) hp
  | succ fuel ih =>
    rw [Pctsp.climb]
    by_cases hvs : v = s
    · subst hvs
      rw [if_pos h.root.2.1, h.root.2.2]; rfl
    · obtain ⟨h1, h2, h3, -⟩ := h.tree v hv hvs
      rw [if_neg h2, ih (st.pred v) (v :: rest) ((h.disc _).1 (Or.inl h1)) (by rw [h3] at hf; simp at hf; omega), h3]
      simp

theorem DijInv.isWalk {g : Graph} {cost : Nat → Int} {mark : Nat → Bool} {s : Nat} {ord : List Nat} {cur : Option Nat}
    {path : Nat → List Nat} {st : DijState} (h : DijInv g cost mark s ord cur path st) (k v : Nat)
    (hv : st.dist v ≠ none) (hk : (path v).length ≤ k) : IsWalk g (path v) := by
  induction k generalizing v with
  | zero =>
    have := h.last v hv
    have e : path v = [] := List.length_eq_zero_iff.1 (by omega)
    rw [e] at this; simp at this
  | succ k ih =>
    by_cases hvs : v = s
    · subst hvs; rw [h.root.2.2]; simp [IsWalk, consec]
    · obtain ⟨h1, h2, h3, h4⟩ := h.tree v hv hvs
      have hd := (h.disc (st.pred v)).1 (Or.inl h1)
      have hw := ih (st.pred v) hd (by rw [h3] at hk; simp at hk; omega)
      obtain ⟨A, hA⟩ := List.getLast?_eq_some_iff.1 (h.last _ hd)
      rw [h3, hA]
      rw [hA] at hw
      have e : A ++ [st.pred v] ++ [v] = A ++ st.pred v :: [v] := by simp
      rw [e, isWalk_append]
      refine ⟨hw, ?_⟩
      intro p hp
      simp [consec] at hp
      subst hp; exact h4

theorem dijInv_init {g : Graph} {cost : Nat → Int} {mark : Nat → Bool} {s : Nat} (hs : s < g.n) (hm : mark s = false) :
    DijInv g cost mark s [] none (upd (fun _ => []) s [s])
      { dist := upd (fun _ => none) s (some 0), pred := fun v => v, color := upd (fun _ => .white) s .gray, queue := [s] } := by
  have hne : ∀ v, upd (fun _ => (none : Option Int)) s (some 0) v ≠ none → v = s := by
    intro v h
    by_cases e : v = s
    · exact e
    · simp [upd, e] at h
  refine ⟨?_, by simp, ?_, by simp, by simp, by simp, ?_, ?_, ?_, ?_, ?_, ?_, ?_, ?_, ?_, by simp, by simp, by simp⟩
  · intro v; by_cases e : v = s <;> simp [upd, e]
  · intro v; by_cases e : v = s <;> simp [upd, e]
  · intro v; by_cases e : v = s <;> simp [upd, e]
  · intro v hv; rw [hne v hv]; exact ⟨hs, hm⟩
  · simp [upd]
  · intro v hv hvs; exact absurd (hne v hv) hvs
  · intro v hv; rw [hne v hv]; simp [upd]
  · intro v hv; rw [hne v hv]; simp [upd]
  · intro v hv; rw [hne v hv]; simp [upd]
  · intro v hv x hx; rw [hne v hv] at hx ⊢; simp [upd] at hx; exact Or.inl hx
  · intro v d hv
    simp only at hv
    have := hne v (by simp [hv])
    subst this
    simp [upd] at hv
    subst hv
    exact Reaches.start

/-- Properties of the result of the search. -/
theorem dijkstra_spec {g : Graph} (hg : g.WF) {cost : Nat → Int} {mark : Nat → Bool} {s : Nat} {pick : Pick} (hpick : pick.Heap)
    (hs : s < g.n) (hm : mark s = false) (target : Nat) :
    (dijkstra g cost mark (some target) pick s = .throw .negativeEdge ∧
      ∃ e u v, EdgeBetween g e u v ∧ cost e < 0 ∧ ∃ d, Reaches g cost mark s u d) ∨
    (∃ st p, dijkstra g cost mark (some target) pick s = .ok (true, st) ∧ pathInTreeFromParents st.pred g.n target = p ∧
      p.Nodup ∧ p.head? = some s ∧ p.getLast? = some target ∧ IsWalk g p ∧ (∀ x ∈ p, x < g.n ∧ mark x = false) ∧
      ∃ d, st.dist target = some d ∧ Reaches g cost mark s target d ∧
        ((∀ e < g.edges.length, 0 ≤ cost e) → ∀ d', Reaches g cost mark s target d' → d ≤ d')) ∨
    (∃ st, dijkstra g cost mark (some target) pick s = .ok (false, st) ∧ ∀ d, ¬ Reaches g cost mark s target d) := by
  have h0 := dijInv_init (g := g) (cost := cost) hs hm
  have heq : dijkstra g cost mark (some target) pick s = dijkstraLoop g cost mark (some target) pick (g.n + 1)
      { dist := upd (fun _ => none) s (some 0), pred := fun v => v, color := upd (fun _ => .white) s .gray, queue := [s] } := by
    rw [dijkstra, if_pos hs]
  rcases dijkstraLoop_spec hg hpick (some target) (g.n + 1) [] _ _ h0 (Or.inr ⟨rfl, rfl⟩) (by simp) (by simp) (by simp) with
    ⟨h1, h2⟩ | ⟨found, st, h1, ⟨ord, path, hinv, hso, hfound, hnot⟩⟩
  · exact Or.inl ⟨by rw [heq]; exact h1, h2⟩
  · right
    -- walks stay inside the settled vertices until they are at least as long as a queued distance
    cases found with
    | true =>
      left
      obtain ⟨t, ht, hto, htd⟩ := hfound rfl
      simp at ht; subst ht
      have hd := (hinv.disc target).1 (Or.inl hto)
      obtain ⟨d, hdt⟩ := Option.ne_none_iff_exists'.1 hd
      have hsub : ∀ x ∈ path target, x ∈ ord := by
        intro x hx
        rcases hinv.sub target hd x hx with rfl | h
        · exact hto
        · exact h
      have hlen : (path target).length ≤ g.n :=
        nodup_length_le (hinv.nodup target hd) (fun x hx => (hinv.lt x ((hinv.disc x).1 (Or.inl (hsub x hx)))).1)
      have hpath : pathInTreeFromParents st.pred g.n target = path target := by
        rw [pathInTreeFromParents, hinv.climb (g.n + 1) target [] hd (by omega)]; simp
      refine ⟨st, path target, by rw [heq]; exact h1, hpath, hinv.nodup target hd, hinv.head target hd, hinv.last target hd,
        hinv.isWalk _ target hd (Nat.le_refl _), fun x hx => hinv.lt x ((hinv.disc x).1 (Or.inl (hsub x hx))), d, hdt, hinv.reach _ _ hdt, ?_⟩
      intro hcost
      have key : ∀ v d', Reaches g cost mark s v d' → (v ∈ ord ∧ ∃ dv, st.dist v = some dv ∧ dv ≤ d') ∨ d ≤ d' := by
        intro v d' hr
        induction hr with
        | start => exact Or.inl ⟨hso, 0, hinv.root.1, by omega⟩
        | @step u v e d' hr he hmv ih =>
          have hce : 0 ≤ cost e := by
            apply hcost
            rcases he with he | he <;> exact (List.getElem?_eq_some_iff.1 he).1
          rcases ih with ⟨huo, du, hdu, hle⟩ | hle
          · obtain ⟨dv, hdv, hle'⟩ := hinv.closed u huo (by simp) e v he hmv du hdu
            rcases (hinv.disc v).2 (by simp [hdv]) with hvo | hvq
            · exact Or.inl ⟨hvo, dv, hdv, by omega⟩
            · right
              have := hinv.order target hto v hvq d dv hdt hdv
              omega
          · right; omega
      intro d' hr
      rcases key target d' hr with ⟨-, dv, hdv, hle⟩ | hle
      · rw [hdt] at hdv; simp at hdv; omega
      · exact hle
    | false =>
      right
      obtain ⟨hq, hnt⟩ := hnot rfl
      refine ⟨st, by rw [heq]; exact h1, fun d hr => hnt target rfl ?_⟩
      have key : ∀ v d', Reaches g cost mark s v d' → v ∈ ord := by
        intro v d' hr
        induction hr with
        | start => exact hso
        | @step u v e d' hr he hmv ih =>
          obtain ⟨du, hdu⟩ := Option.ne_none_iff_exists'.1 ((hinv.disc u).1 (Or.inl ih))
          obtain ⟨dv, hdv, -⟩ := hinv.closed u ih (by simp) e v he hmv du hdu
          rcases (hinv.disc v).2 (by simp [hdv]) with hvo | hvq
          · exact hvo
          · rw [hq] at hvq; simp at hvq
      exact key target d hr

/-- The search without a target: the distances of all vertices. -/
theorem dijkstra_all {g : Graph} (hg : g.WF) {cost : Nat → Int} {mark : Nat → Bool} {s : Nat} {pick : Pick} (hpick : pick.Heap)
    (hs : s < g.n) (hm : mark s = false) :
    (dijkstra g cost mark none pick s = .throw .negativeEdge ∧
      ∃ e u v, EdgeBetween g e u v ∧ cost e < 0 ∧ ∃ d, Reaches g cost mark s u d) ∨
    ∃ st, dijkstra g cost mark none pick s = .ok (false, st) ∧ ∀ v,
      (∀ d, st.dist v = some d → Reaches g cost mark s v d ∧ ∀ d', Reaches g cost mark s v d' → d ≤ d') ∧
      (st.dist v = none → ∀ d, ¬ Reaches g cost mark s v d) := by
  have h0 := dijInv_init (g := g) (cost := cost) hs hm
  have heq : dijkstra g cost mark none pick s = dijkstraLoop g cost mark none pick (g.n + 1)
      { dist := upd (fun _ => none) s (some 0), pred := fun v => v, color := upd (fun _ => .white) s .gray, queue := [s] } := by
    rw [dijkstra, if_pos hs]
  rcases dijkstraLoop_spec hg hpick none (g.n + 1) [] _ _ h0 (Or.inr ⟨rfl, rfl⟩) (by simp) (by simp) (by simp) with
    ⟨h1, h2⟩ | ⟨found, st, h1, ⟨ord, path, hinv, hso, hfound, hnot⟩⟩
  · exact Or.inl ⟨by rw [heq]; exact h1, h2⟩
  · right
    cases found with
    | true => obtain ⟨t, ht, -⟩ := hfound rfl; simp at ht
    | false =>
      obtain ⟨hq, -⟩ := hnot rfl
      have key : ∀ v d', Reaches g cost mark s v d' → v ∈ ord ∧ ∃ dv, st.dist v = some dv ∧ dv ≤ d' := by
        intro v d' hr
        induction hr with
        | start => exact ⟨hso, 0, hinv.root.1, Int.le_refl _⟩
        | @step u v e d' hr he hmv ih =>
          obtain ⟨huo, du, hdu, hle⟩ := ih
          obtain ⟨dv, hdv, hle'⟩ := hinv.closed u huo (by simp) e v he hmv du hdu
          rcases (hinv.disc v).2 (by simp [hdv]) with hvo | hvq
          · exact ⟨hvo, dv, hdv, by omega⟩
          · rw [hq] at hvq; simp at hvq
      refine ⟨st, by rw [heq]; exact h1, fun v => ⟨fun d hd => ⟨hinv.reach v d hd, fun d' hr => ?_⟩, fun hd d hr => ?_⟩⟩
      · obtain ⟨-, dv, hdv, hle⟩ := key v d' hr
        rw [hd] at hdv; simp at hdv; omega
      · obtain ⟨-, dv, hdv, -⟩ := key v d hr
        rw [hd] at hdv; simp at hdv

/-- A possible heap: the first queued vertex of least distance. -/
def firstLeast (d : Nat → Option Int) : List Nat → Nat → Nat
  | [], best => best
  | x :: q, best => firstLeast d q (if (d x).getD 0 < (d best).getD 0 then x else best)

/-- A possible `Pick`. -/
def exPick : Pick := fun _ d q => match q with
  | [] => 0
  | x :: q => firstLeast d q x

theorem firstLeast_spec (d : Nat → Option Int) (q : List Nat) (best : Nat) :
    firstLeast d q best ∈ best :: q ∧ ∀ x ∈ best :: q, (d (firstLeast d q best)).getD 0 ≤ (d x).getD 0 := by
  induction q generalizing best with
  | nil => simp [firstLeast]
  | cons y q ih =>
    rw [firstLeast]
    by_cases hlt : (d y).getD 0 < (d best).getD 0
    · rw [if_pos hlt]
      obtain ⟨h1, h2⟩ := ih y
      refine ⟨List.mem_cons_of_mem _ h1, fun x hx => ?_⟩
      rcases List.mem_cons.1 hx with rfl | hx
      · have := h2 y (by simp); omega
      · exact h2 x hx
    · rw [if_neg hlt]
      obtain ⟨h1, h2⟩ := ih best
      refine ⟨?_, fun x hx => ?_⟩
      · rcases List.mem_cons.1 h1 with h | h
        · rw [h]; simp
        · simp [h]
      · simp only [List.mem_cons] at hx
        rcases hx with rfl | rfl | hx
        · exact h2 x (by simp)
        · have := h2 best (by simp); omega
        · exact h2 x (List.mem_cons_of_mem _ hx)

theorem exPick_heap : exPick.Heap := by
  intro f d q hq
  cases q with
  | nil => exact absurd rfl hq
  | cons x q =>
    obtain ⟨h1, h2⟩ := firstLeast_spec d q x
    refine ⟨h1, fun y hy dp dx hp hy' => ?_⟩
    have := h2 y hy
    rw [show exPick f d (x :: q) = firstLeast d q x from rfl] at hp
    rw [hp, hy'] at this
    simpa using this

end Pctsp
