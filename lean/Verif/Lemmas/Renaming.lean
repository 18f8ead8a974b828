import Verif.Model.Renaming
import Verif.Spec.Names
import Verif.Lemmas.Walk

/-! Helper lemmas: renaming. -/

set_option linter.unusedSectionVars false

namespace Pctsp

variable {α : Type} [DecidableEq α]

/-- The pairs `(k, x₀), (k+1, x₁), ...`. -/
def number : Nat → List α → Bimap α
  | _, [] => []
  | k, x :: xs => (k, x) :: number (k + 1) xs

theorem number_append (k : Nat) (l m : List α) : number k (l ++ m) = number k l ++ number (k + l.length) m := by
  induction l generalizing k with
  | nil => rfl
  | cons x l ih => simp [number, ih]; congr 1; omega

theorem mem_number {k : Nat} {l : List α} {p : Nat × α} : p ∈ number k l ↔ k ≤ p.1 ∧ l[p.1 - k]? = some p.2 := by
  induction l generalizing k with
  | nil => simp [number]
  | cons x l ih =>
    obtain ⟨j, y⟩ := p
    simp only [number, List.mem_cons, Prod.mk.injEq, ih]
    constructor
    · rintro (⟨rfl, rfl⟩ | ⟨h1, h2⟩)
      · simp
      · refine ⟨by omega, ?_⟩
        rw [show j - k = (j - (k + 1)) + 1 by omega]
        simpa using h2
    · rintro ⟨h1, h2⟩
      by_cases e : j = k
      · subst e; simp at h2; exact Or.inl ⟨rfl, h2.symm⟩
      · right
        rw [show j - k = (j - (k + 1)) + 1 by omega] at h2
        exact ⟨by omega, by simpa using h2⟩

theorem nodup_getElem?_inj {l : List α} (h : l.Nodup) {i j : Nat} {x : α} (hi : l[i]? = some x) (hj : l[j]? = some x) : i = j := by
  obtain ⟨hi', e1⟩ := List.getElem?_eq_some_iff.1 hi
  obtain ⟨hj', e2⟩ := List.getElem?_eq_some_iff.1 hj
  exact (List.Nodup.getElem_inj_iff h).1 (e1.trans e2.symm)

theorem find_right_number (D : List α) (hD : D.Nodup) (x : α) :
    (number 0 D).find? (fun p => decide (p.2 = x)) = (D.idxOf? x).map (fun i => (i, x)) := by
  cases h : (number 0 D).find? (fun p => decide (p.2 = x)) with
  | none =>
    have : x ∉ D := by
      intro hx
      obtain ⟨i, hi⟩ := List.mem_iff_getElem?.1 hx
      have := List.find?_eq_none.1 h (i, x) (mem_number.2 ⟨by omega, by simpa using hi⟩)
      simp at this
    rw [List.idxOf?_eq_none_iff.2 this]; rfl
  | some p =>
    have h1 := List.find?_some h
    have h2 := mem_number.1 (List.mem_of_find?_eq_some h)
    obtain ⟨j, y⟩ := p
    simp at h1 h2
    subst h1
    cases hi : D.idxOf? y with
    | none => exact absurd (List.mem_of_getElem? h2) (List.idxOf?_eq_none_iff.1 hi)
    | some i =>
      obtain ⟨hlt, e, -⟩ := List.idxOf?_eq_some_iff.1 hi
      have : D[i]? = some y := by rw [List.getElem?_eq_getElem hlt]; simpa using e
      rw [nodup_getElem?_inj hD h2 this]; rfl

theorem getNewVertex_number {D : List α} (hD : D.Nodup) (x : α) (k : Nat) :
    getNewVertex (number 0 D) x = .ok k ↔ D[k]? = some x := by
  rw [getNewVertex, find_right_number D hD]
  cases hi : D.idxOf? x with
  | none =>
    simp
    intro h
    exact (List.idxOf?_eq_none_iff.1 hi) (List.mem_of_getElem? h)
  | some i =>
    obtain ⟨hlt, e, -⟩ := List.idxOf?_eq_some_iff.1 hi
    have h : D[i]? = some x := by rw [List.getElem?_eq_getElem hlt]; simpa using e
    simp
    constructor
    · rintro rfl; exact h
    · intro h'; exact nodup_getElem?_inj hD h h'

theorem getNewVertex_number_isUb {D : List α} (hD : D.Nodup) {x : α} (hx : x ∉ D) : (getNewVertex (number 0 D) x).isUb = true := by
  rw [getNewVertex, find_right_number D hD, List.idxOf?_eq_none_iff.2 hx]; rfl

theorem getOldVertex_number (D : List α) (k : Nat) (x : α) :
    getOldVertex (number 0 D) k = .ok x ↔ D[k]? = some x := by
  rw [getOldVertex]
  cases h : (number 0 D).find? (fun p => decide (p.1 = k)) with
  | none =>
    simp
    intro hx
    have := List.find?_eq_none.1 h (k, x) (mem_number.2 ⟨by omega, by simpa using hx⟩)
    simp at this
  | some p =>
    have h1 := List.find?_some h
    have h2 := mem_number.1 (List.mem_of_find?_eq_some h)
    obtain ⟨j, y⟩ := p
    simp at h1 h2
    subst h1
    simp only [Res.ok.injEq]
    rw [h2]; simp

/-- The vertices in order of first appearance. -/
def addNew (D : List α) (x : α) : List α := if x ∈ D then D else D ++ [x]

theorem addNew_nodup {D : List α} (h : D.Nodup) (x : α) : (addNew D x).Nodup := by
  rw [addNew]; split
  · exact h
  · rename_i hx
    rw [List.nodup_append]
    refine ⟨h, by simp, ?_⟩
    intro a ha b hb
    simp at hb; subst hb
    rintro rfl; exact hx ha

theorem addNew_prefix (D : List α) (x : α) : D <+: addNew D x := by
  rw [addNew]; split
  · exact List.prefix_rfl
  · exact ⟨[x], rfl⟩

theorem mem_addNew {D : List α} {x y : α} : y ∈ addNew D x ↔ y ∈ D ∨ y = x := by
  rw [addNew]; split
  · constructor
    · exact Or.inl
    · rintro (h | rfl) <;> assumption
  · simp

theorem prefix_getElem? {D D' : List α} (h : D <+: D') {i : Nat} {x : α} (hi : D[i]? = some x) : D'[i]? = some x := by
  obtain ⟨E, rfl⟩ := h
  rw [List.getElem?_append_left (List.getElem?_eq_some_iff.1 hi).1]; exact hi

theorem findOrInsert_number {D : List α} (hD : D.Nodup) (x : α) :
    ∃ k, findOrInsertVertex (number 0 D) x D.length = (k, number 0 (addNew D x), (addNew D x).length) ∧ (addNew D x)[k]? = some x := by
  rw [findOrInsertVertex, find_right_number D hD]
  cases hi : D.idxOf? x with
  | none =>
    have hx := List.idxOf?_eq_none_iff.1 hi
    simp only [Option.map_none]
    refine ⟨D.length, ?_, ?_⟩
    · simp only [addNew, if_neg hx, Prod.mk.injEq, true_and]
      refine ⟨?_, by simp⟩
      rw [Bimap.insert, if_neg, number_append]
      · simp [number]
      · simp only [Bool.or_eq_true, List.any_eq_true, decide_eq_true_eq, not_or, not_exists, not_and]
        constructor
        · rintro ⟨j, y⟩ hp
          have := mem_number.1 hp
          simp at this
          have := (List.getElem?_eq_some_iff.1 this).1
          simp; omega
        · rintro ⟨j, y⟩ hp
          have := mem_number.1 hp
          simp at this
          rintro rfl
          exact hx (List.mem_of_getElem? this)
    · simp [addNew, hx]
  | some i =>
    obtain ⟨hlt, e, -⟩ := List.idxOf?_eq_some_iff.1 hi
    have h : D[i]? = some x := by rw [List.getElem?_eq_getElem hlt]; simpa using e
    have hx : x ∈ D := List.mem_of_getElem? h
    simp only [Option.map_some, addNew, if_pos hx]
    exact ⟨i, rfl, h⟩

theorem foldl_addNew_nodup (vs : List α) (D : List α) (h : D.Nodup) : (vs.foldl addNew D).Nodup := by
  induction vs generalizing D with
  | nil => exact h
  | cons x vs ih => exact ih _ (addNew_nodup h x)

theorem foldl_addNew_prefix (vs : List α) (D : List α) : D <+: vs.foldl addNew D := by
  induction vs generalizing D with
  | nil => exact List.prefix_rfl
  | cons x vs ih => exact (addNew_prefix D x).trans (ih _)

theorem mem_foldl_addNew {vs : List α} {D : List α} {y : α} : y ∈ vs.foldl addNew D ↔ y ∈ D ∨ y ∈ vs := by
  induction vs generalizing D with
  | nil => simp
  | cons x vs ih => rw [List.foldl_cons, ih, mem_addNew]; simp; tauto

/-- The new edge names the old edge. -/
def Names (D : List α) (e : α × α) (e' : Nat × Nat) : Prop := D[e'.1]? = some e.1 ∧ D[e'.2]? = some e.2

theorem renameVerticesLoop_number (vs : List α) {D : List α} (hD : D.Nodup) :
    renameVerticesLoop vs (number 0 D) D.length = number 0 (vs.foldl addNew D) := by
  induction vs generalizing D with
  | nil => rfl
  | cons x vs ih =>
    obtain ⟨k, h1, -⟩ := findOrInsert_number hD x
    rw [renameVerticesLoop, h1]
    exact ih (addNew_nodup hD x)

theorem renameEdgesLoop_number (es : List (α × α)) {D : List α} (hD : D.Nodup) :
    ∃ ne, renameEdgesLoop es (number 0 D) D.length = (ne, number 0 ((endpoints es).foldl addNew D)) ∧
      List.Forall₂ (Names ((endpoints es).foldl addNew D)) es ne := by
  induction es generalizing D with
  | nil => exact ⟨[], rfl, List.Forall₂.nil⟩
  | cons e es ih =>
    obtain ⟨s, h1, h2⟩ := findOrInsert_number hD e.1
    have hD1 := addNew_nodup hD e.1
    obtain ⟨t, h3, h4⟩ := findOrInsert_number hD1 e.2
    have hD2 := addNew_nodup hD1 e.2
    obtain ⟨ne, h5, h6⟩ := ih hD2
    have hfold : (endpoints (e :: es)).foldl addNew D = (endpoints es).foldl addNew (addNew (addNew D e.1) e.2) := rfl
    refine ⟨(s, t) :: ne, ?_, ?_⟩
    · rw [renameEdgesLoop, h1]
      simp only [h3, h5, hfold]
    · rw [hfold]
      refine List.Forall₂.cons ⟨?_, ?_⟩ h6
      · exact prefix_getElem? ((addNew_prefix _ _).trans (foldl_addNew_prefix _ _)) h2
      · exact prefix_getElem? (foldl_addNew_prefix _ _) h4

theorem mapRes_forall₂ {β γ : Type} {f : β → Res γ} {l : List β} {m : List γ} (h : List.Forall₂ (fun x y => f x = .ok y) l m) :
    mapRes f l = .ok m := by
  induction h with
  | nil => rfl
  | cons h1 _ ih => rw [mapRes, h1, ih]; rfl

theorem mapRes_eq_ok {β γ : Type} {f : β → Res γ} {l : List β} {m : List γ} :
    mapRes f l = .ok m ↔ List.Forall₂ (fun x y => f x = .ok y) l m := by
  refine ⟨?_, mapRes_forall₂⟩
  induction l generalizing m with
  | nil => intro h; cases h; exact List.Forall₂.nil
  | cons x l ih =>
    intro h
    rw [mapRes] at h
    obtain ⟨y, h1, h2⟩ := Res.bind_eq_ok.1 h
    obtain ⟨ys, h3, h4⟩ := Res.bind_eq_ok.1 h2
    cases h4
    exact List.Forall₂.cons h1 (ih h3)

theorem foldl_addNew_order (vs : List α) (x y : α) (hx : x ∈ vs) (hy : y ∈ vs) :
    (vs.foldl addNew []).idxOf x < (vs.foldl addNew []).idxOf y ↔ vs.idxOf x < vs.idxOf y := by
  induction vs using List.reverseRecOn with
  | nil => simp at hx
  | append_singleton vs z ih =>
    rw [List.foldl_append, List.foldl_cons, List.foldl_nil]
    have key : ∀ a, a ∈ vs → (addNew (vs.foldl addNew []) z).idxOf a = (vs.foldl addNew []).idxOf a ∧ (vs ++ [z]).idxOf a = vs.idxOf a := by
      intro a ha
      refine ⟨?_, List.idxOf_append_of_mem ha⟩
      rw [addNew]; split
      · rfl
      · exact List.idxOf_append_of_mem (mem_foldl_addNew.2 (Or.inr ha))
    have key2 : z ∉ vs → (addNew (vs.foldl addNew []) z).idxOf z = (vs.foldl addNew []).length ∧ (vs ++ [z]).idxOf z = vs.length := by
      intro hz
      have hz' : z ∉ vs.foldl addNew [] := by rw [mem_foldl_addNew]; simpa using hz
      rw [addNew, if_neg hz', List.idxOf_append_of_notMem hz', List.idxOf_append_of_notMem hz]
      simp
    have lt : ∀ a, a ∈ vs → (vs.foldl addNew []).idxOf a < (vs.foldl addNew []).length ∧ vs.idxOf a < vs.length := by
      intro a ha
      exact ⟨List.idxOf_lt_length_of_mem (mem_foldl_addNew.2 (Or.inr ha)), List.idxOf_lt_length_of_mem ha⟩
    by_cases hxv : x ∈ vs
    · by_cases hyv : y ∈ vs
      · rw [(key x hxv).1, (key x hxv).2, (key y hyv).1, (key y hyv).2]
        exact ih hxv hyv
      · have : y = z := by simpa [hyv] using hy
        subst this
        rw [(key x hxv).1, (key x hxv).2, (key2 hyv).1, (key2 hyv).2]
        simp [lt x hxv]
    · have : x = z := by simpa [hxv] using hx
      subst this
      by_cases hyv : y ∈ vs
      · rw [(key y hyv).1, (key y hyv).2, (key2 hxv).1, (key2 hxv).2]
        have := lt y hyv
        constructor <;> intro <;> omega
      · have : y = x := by simpa [hyv] using hy
        subst this
        simp

/-! ### The renamed graph -/

theorem addEdges_edges (g : Graph) (ps : List (Nat × Nat)) : (g.addEdges ps).edges = g.edges ++ ps := by
  induction ps generalizing g with
  | nil => simp [Graph.addEdges]
  | cons p ps ih =>
    rw [Graph.addEdges, List.foldl_cons, ← Graph.addEdges, ih]
    simp [Graph.addEdge]

theorem addEdges_wf (g : Graph) (hg : g.WF) (ps : List (Nat × Nat)) : (g.addEdges ps).WF ∧ g.n ≤ (g.addEdges ps).n := by
  induction ps generalizing g with
  | nil => exact ⟨hg, Nat.le_refl _⟩
  | cons p ps ih =>
    rw [Graph.addEdges, List.foldl_cons, ← Graph.addEdges]
    have hw : (g.addEdge p.1 p.2).WF := by
      intro e he
      simp [Graph.addEdge] at he
      rcases he with he | rfl
      · have := hg e he
        simp [Graph.addEdge]; omega
      · simp [Graph.addEdge]; omega
    obtain ⟨h1, h2⟩ := ih _ hw
    refine ⟨h1, ?_⟩
    have : g.n ≤ (g.addEdge p.1 p.2).n := by simp [Graph.addEdge]; omega
    omega

theorem forall₂_getElem? {β γ : Type} {R : β → γ → Prop} {l : List β} {m : List γ} (h : List.Forall₂ R l m) {i : Nat} :
    (∀ x, l[i]? = some x → ∃ y, m[i]? = some y ∧ R x y) ∧ (∀ y, m[i]? = some y → ∃ x, l[i]? = some x ∧ R x y) := by
  induction h generalizing i with
  | nil => simp
  | cons h1 _ ih =>
    cases i with
    | zero => simp [h1]
    | succ i => simpa using ih (i := i)

theorem joins_iff_sameEdge {D : List α} (hD : D.Nodup) {e : α × α} {e' : Nat × Nat} (h : Names D e e') {s t : Nat} {x y : α}
    (hs : D[s]? = some x) (ht : D[t]? = some y) : joins s t e' = true ↔ SameEdge (x, y) e := by
  obtain ⟨p, q⟩ := e'
  obtain ⟨a, b⟩ := e
  obtain ⟨h1, h2⟩ := h
  simp only at h1 h2
  have inj : ∀ {i j : Nat} {u v : α}, D[i]? = some u → D[j]? = some v → (i = j ↔ u = v) := by
    intro i j u v hi hj
    constructor
    · rintro rfl; rw [hi] at hj; injection hj
    · rintro rfl; exact nodup_getElem?_inj hD hi hj
  simp only [joins, SameEdge, Bool.or_eq_true, Bool.and_eq_true, beq_iff_eq, Prod.mk.injEq]
  rw [inj h1 hs, inj h2 ht, inj h1 ht, inj h2 hs]
  constructor
  · rintro (⟨rfl, rfl⟩ | ⟨rfl, rfl⟩)
    · exact Or.inl ⟨rfl, rfl⟩
    · exact Or.inr ⟨rfl, rfl⟩
  · rintro (⟨rfl, rfl⟩ | ⟨rfl, rfl⟩)
    · exact Or.inl ⟨rfl, rfl⟩
    · exact Or.inr ⟨rfl, rfl⟩

theorem SameEdge.symm {p q : α × α} (h : SameEdge p q) : SameEdge q p := by
  rcases h with rfl | rfl
  · exact Or.inl rfl
  · exact Or.inr rfl

theorem SameEdge.trans {p q r : α × α} (h : SameEdge p q) (h' : SameEdge q r) : SameEdge p r := by
  rcases h with rfl | rfl
  · exact h'
  · rcases h' with rfl | rfl
    · exact Or.inr rfl
    · exact Or.inl rfl

theorem graphOf_edges (ne : List (Nat × Nat)) : (graphOf ne).edges = ne := by
  rw [graphOf, addEdges_edges]; rfl

theorem graphOf_wf (ne : List (Nat × Nat)) : (graphOf ne).WF := (addEdges_wf _ (by intro e he; simp at he) ne).1

/-- The name of a new vertex. -/
def NameOf (D : List α) (x : α) (k : Nat) : Prop := D[k]? = some x

theorem edgeIdx_graphOf {D : List α} (hD : D.Nodup) {es : List (α × α)} {ne : List (Nat × Nat)} (h : List.Forall₂ (Names D) es ne)
    (hes : es.Pairwise fun p q => ¬ SameEdge p q) {s t i : Nat} {x y : α} {e : α × α} (hs : D[s]? = some x) (ht : D[t]? = some y)
    (hi : es[i]? = some e) (hse : SameEdge (x, y) e) : (graphOf ne).edgeIdx s t = some i := by
  rw [Graph.edgeIdx, graphOf_edges]
  obtain ⟨e', he', hn⟩ := (forall₂_getElem? h).1 e hi
  obtain ⟨hlt, heq⟩ := List.getElem?_eq_some_iff.1 he'
  rw [List.findIdx?_eq_some_iff_getElem]
  refine ⟨hlt, ?_, ?_⟩
  · rw [heq]; exact (joins_iff_sameEdge hD hn hs ht).2 hse
  · intro j hj
    have hjlt : j < ne.length := by omega
    obtain ⟨d, hd, hn'⟩ := (forall₂_getElem? h).2 ne[j] (List.getElem?_eq_getElem hjlt)
    intro hc
    have h2 := (joins_iff_sameEdge hD hn' hs ht).1 hc
    obtain ⟨hj1, hj2⟩ := List.getElem?_eq_some_iff.1 hd
    obtain ⟨hi1, hi2⟩ := List.getElem?_eq_some_iff.1 hi
    have := List.pairwise_iff_getElem.1 hes j i hj1 hi1 hj
    rw [hj2, hi2] at this
    exact this (h2.symm.trans hse)

theorem lt_graphOf {D : List α} {es : List (α × α)} {ne : List (Nat × Nat)} (hD : D.Nodup) (h : List.Forall₂ (Names D) es ne)
    (hmem : ∀ x, x ∈ D → x ∈ endpoints es) {s : Nat} {x : α} (hs : D[s]? = some x) : s < (graphOf ne).n := by
  have := hmem x (List.mem_of_getElem? hs)
  rw [endpoints, List.mem_flatMap] at this
  obtain ⟨e, he, hx⟩ := this
  obtain ⟨i, hi⟩ := List.mem_iff_getElem?.1 he
  obtain ⟨e', he', hn⟩ := (forall₂_getElem? h).1 e hi
  have hw := graphOf_wf ne e' (by rw [graphOf_edges]; exact List.mem_of_getElem? he')
  simp at hx
  rcases hx with rfl | rfl
  · rw [nodup_getElem?_inj hD hs hn.1]; exact hw.1
  · rw [nodup_getElem?_inj hD hs hn.2]; exact hw.2

theorem adj_graphOf {D : List α} (hD : D.Nodup) {es : List (α × α)} {ne : List (Nat × Nat)} (h : List.Forall₂ (Names D) es ne)
    {s t : Nat} {x y : α} (hs : D[s]? = some x) (ht : D[t]? = some y) : Adj (graphOf ne) s t ↔ AdjIn es x y := by
  have h1 : Adj (graphOf ne) s t ↔ ∃ e' ∈ ne, joins s t e' = true := by
    rw [Adj, graphOf_edges]
    constructor
    · rintro (h | h)
      · exact ⟨_, h, by simp [joins]⟩
      · exact ⟨_, h, by simp [joins]⟩
    · rintro ⟨⟨a, b⟩, he, hj⟩
      simp [joins] at hj
      rcases hj with ⟨rfl, rfl⟩ | ⟨rfl, rfl⟩
      · exact Or.inl he
      · exact Or.inr he
  have h2 : AdjIn es x y ↔ ∃ e ∈ es, SameEdge (x, y) e := by
    constructor
    · rintro (h | h)
      · exact ⟨_, h, Or.inl rfl⟩
      · exact ⟨_, h, Or.inr rfl⟩
    · rintro ⟨⟨a, b⟩, he, hj⟩
      rcases hj with hj | hj
      · cases hj; exact Or.inl he
      · cases hj; exact Or.inr he
  rw [h1, h2]
  constructor
  · rintro ⟨e', he', hj⟩
    obtain ⟨i, hi⟩ := List.mem_iff_getElem?.1 he'
    obtain ⟨e, he, hn⟩ := (forall₂_getElem? h).2 e' hi
    exact ⟨e, List.mem_of_getElem? he, (joins_iff_sameEdge hD hn hs ht).1 hj⟩
  · rintro ⟨e, he, hj⟩
    obtain ⟨i, hi⟩ := List.mem_iff_getElem?.1 he
    obtain ⟨e', he', hn⟩ := (forall₂_getElem? h).1 e hi
    exact ⟨e', List.mem_of_getElem? he', (joins_iff_sameEdge hD hn hs ht).2 hj⟩

/-- Every end point of an edge of the new graph has a name. -/
theorem named_of_adj {D : List α} {es : List (α × α)} {ne : List (Nat × Nat)} (h : List.Forall₂ (Names D) es ne)
    {s t : Nat} (ha : Adj (graphOf ne) s t) : (∃ x, D[s]? = some x) ∧ ∃ y, D[t]? = some y := by
  rw [Adj, graphOf_edges] at ha
  rcases ha with ha | ha
  all_goals
    obtain ⟨i, hi⟩ := List.mem_iff_getElem?.1 ha
    obtain ⟨e, -, hn⟩ := (forall₂_getElem? h).2 _ hi
    have := hn.1
    have := hn.2
    simp_all

theorem fillCostMap_spec {D : List α} (hD : D.Nodup) {es : List (α × α)} {ne : List (Nat × Nat)} (h : List.Forall₂ (Names D) es ne)
    (hmem : ∀ x, x ∈ D ↔ x ∈ endpoints es)
    (hes : es.Pairwise fun p q => ¬ SameEdge p q) (w : α → α → Int) (hw : ∀ x y, w x y = w y x)
    (costs : List ((α × α) × Int)) (hc : ∀ p c, (p, c) ∈ costs → c = w p.1 p.2)
    (hin : ∀ p c, (p, c) ∈ costs → AdjIn es p.1 p.2) (f : Nat → Int) :
    ∃ f', fillCostMap (graphOf ne) (number 0 D) costs f = .ok f' ∧
      ∀ i e, es[i]? = some e → f' i = w e.1 e.2 ∨ (f' i = f i ∧ ∀ p c, (p, c) ∈ costs → ¬ SameEdge p e) := by
  induction costs generalizing f with
  | nil => exact ⟨f, rfl, fun i e _ => Or.inr ⟨rfl, by simp⟩⟩
  | cons pc costs ih =>
    obtain ⟨⟨x, y⟩, c⟩ := pc
    have hadj := hin (x, y) c (by simp)
    have hex : ∃ e ∈ es, SameEdge (x, y) e := by
      rcases hadj with h | h
      · exact ⟨_, h, Or.inl rfl⟩
      · exact ⟨_, h, Or.inr rfl⟩
    obtain ⟨e, he, hse⟩ := hex
    have hxD : x ∈ D := by
      rw [hmem, endpoints, List.mem_flatMap]
      refine ⟨e, he, ?_⟩
      rcases hse with rfl | h
      · simp
      · cases h; simp
    have hyD : y ∈ D := by
      rw [hmem, endpoints, List.mem_flatMap]
      refine ⟨e, he, ?_⟩
      rcases hse with rfl | h
      · simp
      · cases h; simp
    obtain ⟨s, hs⟩ := List.mem_iff_getElem?.1 hxD
    obtain ⟨t, ht⟩ := List.mem_iff_getElem?.1 hyD
    obtain ⟨i0, hi0⟩ := List.mem_iff_getElem?.1 he
    obtain ⟨f', h1, h2⟩ := ih (fun p c hp => hc p c (by simp [hp])) (fun p c hp => hin p c (by simp [hp])) (upd f i0 c)
    refine ⟨f', ?_, ?_⟩
    · rw [fillCostMap, (getNewVertex_number hD x s).2 hs, Res.ok_bind, (getNewVertex_number hD y t).2 ht, Res.ok_bind, Graph.edge,
        if_pos (lt_graphOf hD h (fun x => (hmem x).1) hs), edgeIdx_graphOf hD h hes hs ht hi0 hse]
      exact h1
    · intro i d hi
      rcases h2 i d hi with h3 | ⟨h3, h4⟩
      · exact Or.inl h3
      · by_cases e1 : i = i0
        · subst e1
          rw [hi0] at hi; injection hi with hi; subst hi
          left
          rw [h3, upd, if_pos rfl, hc (x, y) c (by simp)]
          rcases hse with rfl | h
          · rfl
          · cases h; exact hw _ _
        · right
          refine ⟨by rw [h3, upd, if_neg e1], ?_⟩
          intro p c' hp
          rw [List.mem_cons] at hp
          rcases hp with hp | hp
          · cases hp
            intro hsame
            obtain ⟨a1, a2⟩ := List.getElem?_eq_some_iff.1 hi
            obtain ⟨b1, b2⟩ := List.getElem?_eq_some_iff.1 hi0
            have hde : SameEdge d e := hsame.symm.trans hse
            rcases Nat.lt_or_gt_of_ne e1 with hlt | hlt
            · have := List.pairwise_iff_getElem.1 hes i i0 a1 b1 hlt
              rw [a2, b2] at this; exact this hde
            · have := List.pairwise_iff_getElem.1 hes i0 i b1 a1 hlt
              rw [a2, b2] at this; exact this hde.symm
          · exact h4 p c' hp

theorem fillVertexMap_spec {D : List α} (hD : D.Nodup) (π : α → Int) (prizes : List (α × Int)) (hc : ∀ x c, (x, c) ∈ prizes → c = π x)
    (hin : ∀ x c, (x, c) ∈ prizes → x ∈ D) (f : Nat → Int) :
    ∃ f', fillVertexMap (number 0 D) prizes f = .ok f' ∧
      ∀ k x, D[k]? = some x → f' k = π x ∨ (f' k = f k ∧ ∀ c, (x, c) ∉ prizes) := by
  induction prizes generalizing f with
  | nil => exact ⟨f, rfl, fun k x _ => Or.inr ⟨rfl, by simp⟩⟩
  | cons p prizes ih =>
    obtain ⟨x, c⟩ := p
    obtain ⟨s, hs⟩ := List.mem_iff_getElem?.1 (hin x c (by simp))
    obtain ⟨f', h1, h2⟩ := ih (fun p c hp => hc p c (by simp [hp])) (fun p c hp => hin p c (by simp [hp])) (upd f s c)
    refine ⟨f', ?_, ?_⟩
    · rw [fillVertexMap, (getNewVertex_number hD x s).2 hs]
      exact h1
    · intro k y hk
      rcases h2 k y hk with h3 | ⟨h3, h4⟩
      · exact Or.inl h3
      · by_cases e : k = s
        · subst e
          rw [hs] at hk; injection hk with hk; subst hk
          left; rw [h3, upd, if_pos rfl, hc x c (by simp)]
        · right
          refine ⟨by rw [h3, upd, if_neg e], ?_⟩
          intro c' hm
          rw [List.mem_cons] at hm
          rcases hm with hm | hm
          · cases hm; exact e (nodup_getElem?_inj hD hk hs)
          · exact h4 c' hm

theorem fillVertexMap_unknown {D : List α} (hD : D.Nodup) (prizes : List (α × Int)) (f : Nat → Int) {x : α} {c : Int}
    (hx : (x, c) ∈ prizes) (hxD : x ∉ D) : (fillVertexMap (number 0 D) prizes f).isUb = true := by
  induction prizes generalizing f with
  | nil => simp at hx
  | cons p prizes ih =>
    obtain ⟨y, d⟩ := p
    rw [fillVertexMap]
    by_cases hy : y ∈ D
    · obtain ⟨s, hs⟩ := List.mem_iff_getElem?.1 hy
      rw [(getNewVertex_number hD y s).2 hs, Res.ok_bind]
      apply ih
      rcases List.mem_cons.1 hx with h | h
      · cases h; exact absurd hy hxD
      · exact h
    · have := getNewVertex_number_isUb hD hy
      cases hg : getNewVertex (number 0 D) y with
      | ok a => rw [hg] at this; simp [Res.isUb] at this
      | throw a => rw [hg] at this; simp [Res.isUb] at this
      | ub a => rfl

/-! ### Transport of tours -/

theorem consec_forall₂ {D : List α} {t : List α} {t' : List Nat} (h : List.Forall₂ (NameOf D) t t') :
    List.Forall₂ (fun (p : α × α) (q : Nat × Nat) => D[q.1]? = some p.1 ∧ D[q.2]? = some p.2) (consec t) (consec t') := by
  induction h with
  | nil => exact List.Forall₂.nil
  | @cons x k t t' h1 h2 ih =>
    cases h2 with
    | nil => exact List.Forall₂.nil
    | cons h3 h4 => exact List.Forall₂.cons ⟨h1, h3⟩ ih

theorem forall₂_dropLast {β γ : Type} {R : β → γ → Prop} {t : List β} {t' : List γ} (h : List.Forall₂ R t t') :
    List.Forall₂ R t.dropLast t'.dropLast := by
  induction h with
  | nil => exact List.Forall₂.nil
  | @cons x k t t' h1 h2 ih =>
    cases h2 with
    | nil => exact List.Forall₂.nil
    | cons h3 h4 => exact List.Forall₂.cons h1 ih

theorem forall₂_nodup {D : List α} (hD : D.Nodup) {t : List α} {t' : List Nat} (h : List.Forall₂ (NameOf D) t t') :
    t.Nodup ↔ t'.Nodup := by
  induction h with
  | nil => simp
  | @cons x k t t' h1 h2 ih =>
    rw [List.nodup_cons, List.nodup_cons, ih]
    refine and_congr_left' (not_congr ?_)
    constructor
    · intro hx
      obtain ⟨i, hi⟩ := List.mem_iff_getElem?.1 hx
      obtain ⟨k', hk', hn⟩ := (forall₂_getElem? h2).1 x hi
      rw [nodup_getElem?_inj hD h1 hn]; exact List.mem_of_getElem? hk'
    · intro hk
      obtain ⟨i, hi⟩ := List.mem_iff_getElem?.1 hk
      obtain ⟨x', hx', hn⟩ := (forall₂_getElem? h2).2 k hi
      have : some x = some x' := h1.symm.trans hn
      injection this with this; subst this
      exact List.mem_of_getElem? hx'

theorem forall₂_shape {D : List α} {t : List α} {t' : List Nat} (h : List.Forall₂ (NameOf D) t t') (hD : D.Nodup) {r : α} {r' : Nat}
    (hr : D[r']? = some r) : (∃ m, t = r :: (m ++ [r])) ↔ ∃ m, t' = r' :: (m ++ [r']) := by
  have inj : ∀ {x : α} {k : Nat}, NameOf D x k → (x = r ↔ k = r') := by
    intro x k hk
    constructor
    · rintro rfl; exact nodup_getElem?_inj hD hk hr
    · rintro rfl
      have : some x = some r := hk.symm.trans hr
      injection this
  have gen : ∀ {t : List α} {t' : List Nat}, List.Forall₂ (NameOf D) t t' → ((∃ m, t = m ++ [r]) ↔ ∃ m, t' = m ++ [r']) := by
    intro t t' h
    induction h with
    | nil => simp
    | @cons x k t t' h1 h2 ih =>
      cases h2 with
      | nil =>
        constructor
        · rintro ⟨m, hm⟩
          cases m with
          | nil => simp at hm; exact ⟨[], by simp [(inj h1).1 hm]⟩
          | cons a m => simp at hm
        · rintro ⟨m, hm⟩
          cases m with
          | nil => simp at hm; exact ⟨[], by simp [(inj h1).2 hm]⟩
          | cons a m => simp at hm
      | cons h3 h4 =>
        constructor
        · rintro ⟨m, hm⟩
          cases m with
          | nil => simp at hm
          | cons a m =>
            rw [List.cons_append] at hm
            injection hm with _ hm
            obtain ⟨m', hm'⟩ := ih.1 ⟨m, hm⟩
            exact ⟨k :: m', by rw [hm']; rfl⟩
        · rintro ⟨m, hm⟩
          cases m with
          | nil => simp at hm
          | cons a m =>
            rw [List.cons_append] at hm
            injection hm with _ hm
            obtain ⟨m', hm'⟩ := ih.2 ⟨m, hm⟩
            exact ⟨x :: m', by rw [hm']; rfl⟩
  cases h with
  | nil => simp
  | @cons x k t t' h1 h2 =>
    constructor
    · rintro ⟨m, hm⟩
      injection hm with ha hb
      obtain ⟨m', hm'⟩ := (gen h2).1 ⟨m, hb⟩
      exact ⟨m', by rw [(inj h1).1 ha, hm']⟩
    · rintro ⟨m, hm⟩
      injection hm with ha hb
      obtain ⟨m', hm'⟩ := (gen h2).2 ⟨m, hb⟩
      exact ⟨m', by rw [(inj h1).2 ha, hm']⟩

theorem tour_transport {D : List α} (hD : D.Nodup) {es : List (α × α)} {ne : List (Nat × Nat)} (h : List.Forall₂ (Names D) es ne)
    {t : List α} {t' : List Nat} (ht : List.Forall₂ (NameOf D) t t') {r : α} {r' : Nat} (hr : D[r']? = some r) :
    IsTour (graphOf ne) r' t' ↔ IsTourIn es r t := by
  have hwalk : IsWalk (graphOf ne) t' ↔ ∀ p ∈ consec t, AdjIn es p.1 p.2 := by
    have hc := consec_forall₂ ht
    constructor
    · intro hw p hp
      obtain ⟨i, hi⟩ := List.mem_iff_getElem?.1 hp
      obtain ⟨q, hq, hn⟩ := (forall₂_getElem? hc).1 p hi
      exact (adj_graphOf hD h hn.1 hn.2).1 (hw q (List.mem_of_getElem? hq))
    · intro hw q hq
      obtain ⟨i, hi⟩ := List.mem_iff_getElem?.1 hq
      obtain ⟨p, hp, hn⟩ := (forall₂_getElem? hc).2 q hi
      exact (adj_graphOf hD h hn.1 hn.2).2 (hw p (List.mem_of_getElem? hp))
  constructor
  · intro ⟨a, b, c⟩
    exact ⟨(forall₂_shape ht hD hr).2 a, (forall₂_nodup hD (forall₂_dropLast ht)).2 b, hwalk.1 c⟩
  · intro ⟨a, b, c⟩
    exact ⟨(forall₂_shape ht hD hr).1 a, (forall₂_nodup hD (forall₂_dropLast ht)).1 b, hwalk.2 c⟩

/-- The vertices of a walk of the new graph with at least one edge are named. -/
theorem walk_named {D : List α} {es : List (α × α)} {ne : List (Nat × Nat)} (h : List.Forall₂ (Names D) es ne)
    {t' : List Nat} (hw : IsWalk (graphOf ne) t') (hl : t'.length ≠ 1) : ∃ t, List.Forall₂ (NameOf D) t t' := by
  have gen : ∀ (k : Nat) (t' : List Nat), (∃ x, D[k]? = some x) → IsWalk (graphOf ne) (k :: t') →
      ∃ t, List.Forall₂ (NameOf D) t (k :: t') := by
    intro k t'
    induction t' generalizing k with
    | nil => rintro ⟨x, hx⟩ _; exact ⟨[x], List.Forall₂.cons hx List.Forall₂.nil⟩
    | cons l t' ih =>
      rintro ⟨x, hx⟩ hw
      have ha : Adj (graphOf ne) k l := hw (k, l) (by simp [consec])
      obtain ⟨t, ht⟩ := ih l (named_of_adj h ha).2 (fun p hp => hw p (by
        simp only [consec, List.tail_cons, List.zip_cons_cons, List.mem_cons]; right; exact hp))
      exact ⟨x :: t, List.Forall₂.cons hx ht⟩
  cases t' with
  | nil => exact ⟨[], List.Forall₂.nil⟩
  | cons k t' =>
    cases t' with
    | nil => simp at hl
    | cons l t' =>
      exact gen k _ (named_of_adj h (hw (k, l) (by simp [consec]))).1 hw

theorem cost_transport {D : List α} (hD : D.Nodup) {es : List (α × α)} {ne : List (Nat × Nat)} (h : List.Forall₂ (Names D) es ne)
    (hes : es.Pairwise fun p q => ¬ SameEdge p q) {w : α → α → Int} (hw : ∀ x y, w x y = w y x) {f : Nat → Int}
    (hf : ∀ i e, es[i]? = some e → f i = w e.1 e.2) {t : List α} {t' : List Nat} (ht : List.Forall₂ (NameOf D) t t')
    (hwalk : IsWalk (graphOf ne) t') : walkCost (graphOf ne) f t' = namedCost w t := by
  rw [walkCost, namedCost]
  have hc := consec_forall₂ ht
  have hadj : ∀ q ∈ consec t', Adj (graphOf ne) q.1 q.2 := hwalk
  revert hadj
  generalize consec t' = l' at hc
  generalize consec t = l at hc
  intro hadj
  congr 1
  induction hc with
  | nil => rfl
  | @cons p q l l' h1 h2 ih =>
    rw [List.map_cons, List.map_cons, ih (fun q hq => hadj q (by simp [hq]))]
    congr 1
    have ha : AdjIn es p.1 p.2 := (adj_graphOf hD h h1.1 h1.2).1 (hadj q (by simp))
    have hex : ∃ e ∈ es, SameEdge p e := by
      rcases ha with h | h
      · exact ⟨_, h, Or.inl rfl⟩
      · exact ⟨_, h, Or.inr rfl⟩
    obtain ⟨e, he, hse⟩ := hex
    obtain ⟨i, hi⟩ := List.mem_iff_getElem?.1 he
    have := edgeIdx_graphOf hD h hes h1.1 h1.2 hi hse
    rw [pairCost, show (graphOf ne).edges.findIdx? (fun e => decide (e = (q.1, q.2) ∨ e = (q.2, q.1))) = some i by
      rw [← this, Graph.edgeIdx]
      congr 1
      funext e
      obtain ⟨a, b⟩ := e
      rw [Bool.eq_iff_iff]
      simp [joins]]
    simp only [hf i e hi]
    rcases hse with rfl | rfl
    · rfl
    · exact hw _ _

theorem prize_transport {D : List α} {π : α → Int} {f : Nat → Int}
    (hf : ∀ k x, D[k]? = some x → f k = π x) {t : List α} {t' : List Nat} (ht : List.Forall₂ (NameOf D) t t') :
    tourPrize f t' = namedPrize π t := by
  rw [tourPrize, namedPrize, prizeSum]
  have := forall₂_dropLast ht
  generalize t'.dropLast = l' at this
  generalize t.dropLast = l at this
  congr 1
  induction this with
  | nil => rfl
  | cons h1 _ ih => rw [List.map_cons, List.map_cons, ih, hf _ _ h1]

/-- The vertices in order of first appearance. -/
def firstSeen (es : List (α × α)) : List α := (endpoints es).foldl addNew []

theorem firstSeen_nodup (es : List (α × α)) : (firstSeen es).Nodup := foldl_addNew_nodup _ _ (by simp)

theorem mem_firstSeen (es : List (α × α)) (x : α) : x ∈ firstSeen es ↔ x ∈ endpoints es := by
  rw [firstSeen, mem_foldl_addNew]; simp

theorem renameEdges_nil (es : List (α × α)) :
    ∃ ne, renameEdges [] es = (ne, number 0 (firstSeen es)) ∧ List.Forall₂ (Names (firstSeen es)) es ne :=
  renameEdgesLoop_number es (D := []) (by simp)

end Pctsp
