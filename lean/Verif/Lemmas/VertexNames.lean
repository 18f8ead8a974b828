import Verif.Model.Solve
import Verif.Spec.VertexNames
import Verif.Lemmas.Renaming
import Mathlib.Data.List.Pairwise

/-! Helper lemmas: calling a binding with other names for the vertices. -/

namespace Pctsp

theorem SameUpTo.of_eq {α β : Type} {f : α → β} {r : Res α} {r' : Res β} (h : r' = f <$> r) : SameUpTo f r r' := by
  subst h
  cases r with
  | ok a => exact ⟨fun x h => by cases h; rfl, fun b h => ⟨a, rfl, by cases h; rfl⟩⟩
  | throw e => exact ⟨fun x h => (by cases h), fun b h => (by cases h)⟩
  | ub w => exact ⟨fun x h => (by cases h), fun b h => (by cases h)⟩

theorem SameUpTo.refl {α : Type} (r : Res α) : SameUpTo id r r := ⟨fun _ h => h, fun b h => ⟨b, h, rfl⟩⟩

theorem SameUpTo.bind {α β γ δ : Type} {f : α → β} {g : γ → δ} {r : Res α} {r' : Res β} (h : SameUpTo f r r') {k : α → Res γ} {k' : β → Res δ}
    (hk : ∀ a, r = .ok a → SameUpTo g (k a) (k' (f a))) : SameUpTo g (r >>= k) (r' >>= k') := by
  constructor
  · intro c hc
    obtain ⟨a, ha, hc⟩ := Res.bind_eq_ok.1 hc
    exact Res.bind_eq_ok.2 ⟨f a, h.fwd a ha, (hk a ha).fwd c hc⟩
  · intro d hd
    obtain ⟨b, hb, hd⟩ := Res.bind_eq_ok.1 hd
    obtain ⟨a, ha, rfl⟩ := h.back b hb
    obtain ⟨c, hc, rfl⟩ := (hk a ha).back d hd
    exact ⟨c, Res.bind_eq_ok.2 ⟨a, ha, hc⟩, rfl⟩

theorem SameUpTo.trans_id {α β : Type} {f : α → β} {r : Res α} {r' r'' : Res β} (h : SameUpTo f r r') (h' : SameUpTo id r' r'') : SameUpTo f r r'' :=
  ⟨fun a ha => h'.fwd _ (h.fwd a ha), fun b hb => by obtain ⟨b', hb', rfl⟩ := h'.back b hb; exact h.back _ hb'⟩

section
variable {α β : Type} [DecidableEq α] [DecidableEq β] {φ : α → β}

/-- The lookup with other names. -/
def Bimap.rename (φ : α → β) (b : Bimap α) : Bimap β := b.map fun p => (p.1, φ p.2)

theorem rename_find_right (hφ : Function.Injective φ) (b : Bimap α) (x : α) :
    (b.rename φ).find? (fun p => decide (p.2 = φ x)) = (b.find? fun p => decide (p.2 = x)).map fun p => (p.1, φ p.2) := by
  rw [Bimap.rename, List.find?_map]
  congr 2
  funext p
  simp [hφ.eq_iff]

theorem rename_find_left (b : Bimap α) (k : Nat) :
    (b.rename φ).find? (fun p => decide (p.1 = k)) = (b.find? fun p => decide (p.1 = k)).map fun p => (p.1, φ p.2) := by
  rw [Bimap.rename, List.find?_map]
  rfl

theorem rename_insert (hφ : Function.Injective φ) (b : Bimap α) (k : Nat) (x : α) : (b.rename φ).insert k (φ x) = (b.insert k x).rename φ := by
  have h1 : ((b.rename φ).any fun p => decide (p.1 = k)) = b.any fun p => decide (p.1 = k) := by simp [Bimap.rename, List.any_map, Function.comp_def]
  have h2 : ((b.rename φ).any fun p => decide (p.2 = φ x)) = b.any fun p => decide (p.2 = x) := by
    simp [Bimap.rename, List.any_map, Function.comp_def, hφ.eq_iff]
  unfold Bimap.insert
  rw [h1, h2]
  split
  · rfl
  · simp [Bimap.rename]

theorem rename_findOrInsert (hφ : Function.Injective φ) (b : Bimap α) (x : α) (k : Nat) :
    findOrInsertVertex (b.rename φ) (φ x) k = ((findOrInsertVertex b x k).1, (findOrInsertVertex b x k).2.1.rename φ, (findOrInsertVertex b x k).2.2) := by
  unfold findOrInsertVertex
  rw [rename_find_right hφ]
  cases b.find? fun p => decide (p.2 = x) with
  | none => simp [rename_insert hφ]
  | some p => simp

theorem rename_renameEdgesLoop (hφ : Function.Injective φ) (es : List (α × α)) (b : Bimap α) (k : Nat) :
    renameEdgesLoop (renamePairs φ es) (b.rename φ) k = ((renameEdgesLoop es b k).1, (renameEdgesLoop es b k).2.rename φ) := by
  induction es generalizing b k with
  | nil => rfl
  | cons e es ih =>
    have : renamePairs φ (e :: es) = (φ e.1, φ e.2) :: renamePairs φ es := rfl
    rw [this, renameEdgesLoop, renameEdgesLoop]
    simp only [rename_findOrInsert hφ, ih]

theorem rename_renameEdges (hφ : Function.Injective φ) (es : List (α × α)) :
    renameEdges [] (renamePairs φ es) = ((renameEdges [] es).1, (renameEdges [] es).2.rename φ) := rename_renameEdgesLoop hφ es [] 0

theorem rename_getNewVertex (hφ : Function.Injective φ) (b : Bimap α) (x : α) : getNewVertex (b.rename φ) (φ x) = getNewVertex b x := by
  unfold getNewVertex
  rw [rename_find_right hφ]
  cases b.find? fun p => decide (p.2 = x) <;> rfl

theorem rename_getOldVertex (b : Bimap α) (k : Nat) : getOldVertex (b.rename φ) k = φ <$> getOldVertex b k := by
  unfold getOldVertex
  rw [rename_find_left]
  cases b.find? fun p => decide (p.1 = k) <;> rfl

theorem rename_getNewVertices (hφ : Function.Injective φ) (b : Bimap α) (l : List α) : getNewVertices (b.rename φ) (l.map φ) = getNewVertices b l := by
  unfold getNewVertices
  induction l with
  | nil => rfl
  | cons x l ih => simp only [List.map_cons, mapRes, rename_getNewVertex hφ, ih]

theorem rename_getNewEdges (hφ : Function.Injective φ) (b : Bimap α) (l : List (α × α)) : getNewEdges (b.rename φ) (renamePairs φ l) = getNewEdges b l := by
  unfold getNewEdges
  induction l with
  | nil => rfl
  | cons e l ih =>
    have : renamePairs φ (e :: l) = (φ e.1, φ e.2) :: renamePairs φ l := rfl
    rw [this]
    simp only [mapRes, getNewEdge, rename_getNewVertex hφ, ih]

theorem rename_getOldVertices (b : Bimap α) (l : List Nat) : getOldVertices (b.rename φ) l = List.map φ <$> getOldVertices b l := by
  unfold getOldVertices
  induction l with
  | nil => rfl
  | cons k l ih =>
    simp only [mapRes, rename_getOldVertex, ih]
    cases getOldVertex b k with
    | ok a => cases mapRes (getOldVertex b) l <;> rfl
    | throw e => rfl
    | ub w => rfl

theorem rename_getOldEdges (b : Bimap α) (l : List (Nat × Nat)) : getOldEdges (b.rename φ) l = renamePairs φ <$> getOldEdges b l := by
  unfold getOldEdges
  induction l with
  | nil => rfl
  | cons e l ih =>
    simp only [mapRes, getOldEdge, rename_getOldVertex, ih]
    cases getOldVertex b e.1 with
    | ok x =>
      cases getOldVertex b e.2 with
      | ok y => cases mapRes (getOldEdge b) l <;> rfl
      | throw e => rfl
      | ub w => rfl
    | throw e => rfl
    | ub w => rfl

theorem rename_fillCostMap (hφ : Function.Injective φ) (g : Graph) (b : Bimap α) (l : List ((α × α) × Int)) (f : Nat → Int) :
    fillCostMap g (b.rename φ) (renameCosts φ l) f = fillCostMap g b l f := by
  induction l generalizing f with
  | nil => rfl
  | cons x l ih =>
    have : renameCosts φ (x :: l) = ((φ x.1.1, φ x.1.2), x.2) :: renameCosts φ l := rfl
    rw [this]
    obtain ⟨⟨u, v⟩, c⟩ := x
    simp only [fillCostMap, rename_getNewVertex hφ, ih]

theorem rename_fillVertexMap (hφ : Function.Injective φ) (b : Bimap α) (l : List (α × Int)) (f : Nat → Int) :
    fillVertexMap (b.rename φ) (renamePrizes φ l) f = fillVertexMap b l f := by
  induction l generalizing f with
  | nil => rfl
  | cons x l ih =>
    have : renamePrizes φ (x :: l) = (φ x.1, x.2) :: renamePrizes φ l := rfl
    rw [this]
    obtain ⟨u, c⟩ := x
    simp only [fillVertexMap, rename_getNewVertex hφ, ih]

end

section
variable {α : Type} [DecidableEq α]

theorem upd_comm {β : Type} (f : Nat → β) {i j : Nat} (h : i ≠ j) (a b : β) : upd (upd f i a) j b = upd (upd f j b) i a := by
  funext k
  unfold upd
  by_cases h1 : k = j
  · subst h1; simp [h.symm]
  · by_cases h2 : k = i
    · subst h2; simp [h]
    · simp [h1, h2]

/-- The order of the entries does not matter if no vertex occurs twice. -/
theorem fillVertexMap_perm {D : List α} (hD : D.Nodup) {l l' : List (α × Int)} (h : l.Perm l') (hn : (l.map (·.1)).Nodup) (f : Nat → Int) :
    SameUpTo id (fillVertexMap (number 0 D) l f) (fillVertexMap (number 0 D) l' f) := by
  induction h generalizing f with
  | nil => exact .refl _
  | cons x h ih =>
    obtain ⟨u, c⟩ := x
    exact (SameUpTo.refl _).bind fun v _ => ih (List.nodup_cons.1 hn).2 _
  | swap x y l =>
    obtain ⟨u, c⟩ := x
    obtain ⟨v, d⟩ := y
    have huv : v ≠ u := by simp at hn; exact hn.1.1
    unfold fillVertexMap
    unfold fillVertexMap
    cases hv : getNewVertex (number 0 D) v with
    | ok j =>
      cases hu : getNewVertex (number 0 D) u with
      | ok i =>
        have hij : i ≠ j := by
          rintro rfl
          have h1 := (getNewVertex_number hD u i).1 hu
          have h2 := (getNewVertex_number hD v i).1 hv
          exact huv (by rw [h1] at h2; cases h2; rfl)
        simp only [Res.ok_bind]
        rw [upd_comm f hij]
        exact .refl _
      | throw e => exact ⟨fun _ h => (by cases h), fun _ h => (by cases h)⟩
      | ub w => exact ⟨fun _ h => (by cases h), fun _ h => (by cases h)⟩
    | throw e => 
      refine ⟨fun _ h => (by cases h), fun _ h => ?_⟩
      obtain ⟨_, _, h⟩ := Res.bind_eq_ok.1 h
      cases h
    | ub w =>
      refine ⟨fun _ h => (by cases h), fun _ h => ?_⟩
      obtain ⟨_, _, h⟩ := Res.bind_eq_ok.1 h
      cases h
  | trans h1 h2 ih1 ih2 => exact (ih1 hn f).trans_id (ih2 ((h1.map _).nodup_iff.1 hn) f)

/-- The edge that an entry of the map of costs sets. -/
def entryEdge (g : Graph) (b : Bimap α) (p : α × α) : Res Nat := do
  let s ← getNewVertex b p.1
  let t ← getNewVertex b p.2
  let e ← g.edge s t
  match e with
  | none => .throw (.edgeNotFound s t)
  | some i => pure i

theorem fillCostMap_cons (g : Graph) (b : Bimap α) (p : α × α) (c : Int) (l : List ((α × α) × Int)) (f : Nat → Int) :
    fillCostMap g b ((p, c) :: l) f = (entryEdge g b p >>= fun i => fillCostMap g b l (upd f i c)) := by
  unfold entryEdge
  rw [fillCostMap]
  cases getNewVertex b p.1 with
  | ok s =>
    cases getNewVertex b p.2 with
    | ok t =>
      simp only [Res.ok_bind]
      cases g.edge s t with
      | ok e => cases e <;> rfl
      | throw e => rfl
      | ub w => rfl
    | throw e => rfl
    | ub w => rfl
  | throw e => rfl
  | ub w => rfl

theorem entryEdge_inj {D : List α} (hD : D.Nodup) {g : Graph} {p q : α × α} {i : Nat} (hp : entryEdge g (number 0 D) p = .ok i)
    (hq : entryEdge g (number 0 D) q = .ok i) : SameEdge p q := by
  have key : ∀ p : α × α, entryEdge g (number 0 D) p = .ok i → ∃ s t e, D[s]? = some p.1 ∧ D[t]? = some p.2 ∧ g.edges[i]? = some e ∧ joins s t e = true := by
    intro p hp
    unfold entryEdge at hp
    obtain ⟨s, hs, hp⟩ := Res.bind_eq_ok.1 hp
    obtain ⟨t, ht, hp⟩ := Res.bind_eq_ok.1 hp
    obtain ⟨o, ho, hp⟩ := Res.bind_eq_ok.1 hp
    cases o with
    | none => cases hp
    | some j =>
      cases hp
      unfold Graph.edge at ho
      split at ho
      · injection ho with ho
        unfold Graph.edgeIdx at ho
        obtain ⟨hi, hj, -⟩ := List.findIdx?_eq_some_iff_getElem.1 ho
        exact ⟨s, t, g.edges[i], (getNewVertex_number hD _ _).1 hs, (getNewVertex_number hD _ _).1 ht, List.getElem?_eq_getElem hi, hj⟩
      · cases ho
  obtain ⟨s, t, e, h1, h2, h3, h4⟩ := key p hp
  obtain ⟨s', t', e', h1', h2', h3', h4'⟩ := key q hq
  rw [h3] at h3'
  cases h3'
  simp only [joins, Bool.or_eq_true, Bool.and_eq_true, beq_iff_eq] at h4 h4'
  unfold SameEdge
  have : (s = s' ∧ t = t') ∨ (s = t' ∧ t = s') := by omega
  obtain ⟨p1, p2⟩ := p
  obtain ⟨q1, q2⟩ := q
  dsimp only at h1 h2 h1' h2' ⊢
  rcases this with ⟨rfl, rfl⟩ | ⟨rfl, rfl⟩
  · rw [h1] at h1'; rw [h2] at h2'; cases h1'; cases h2'
    simp
  · rw [h1] at h2'; rw [h2] at h1'; cases h1'; cases h2'
    simp

/-- The order of the entries does not matter if no edge occurs twice, in the same or in different directions. -/
theorem fillCostMap_perm {D : List α} (hD : D.Nodup) (g : Graph) {l l' : List ((α × α) × Int)} (h : l.Perm l')
    (hn : l.Pairwise fun x y => ¬ SameEdge x.1 y.1) (f : Nat → Int) :
    SameUpTo id (fillCostMap g (number 0 D) l f) (fillCostMap g (number 0 D) l' f) := by
  induction h generalizing f with
  | nil => exact .refl _
  | cons x h ih =>
    obtain ⟨p, c⟩ := x
    rw [fillCostMap_cons, fillCostMap_cons]
    exact (SameUpTo.refl _).bind fun v _ => ih (List.pairwise_cons.1 hn).2 _
  | swap x y l =>
    obtain ⟨p, c⟩ := x
    obtain ⟨q, d⟩ := y
    have hpq : ¬ SameEdge q p := (List.pairwise_cons.1 hn).1 (p, c) (by simp)
    rw [fillCostMap_cons, fillCostMap_cons]
    cases hq : entryEdge g (number 0 D) q with
    | ok j =>
      cases hp : entryEdge g (number 0 D) p with
      | ok i =>
        have hij : j ≠ i := by rintro rfl; exact hpq (entryEdge_inj hD hq hp)
        simp only [Res.ok_bind, fillCostMap_cons, hq, hp]
        rw [upd_comm f hij]
        exact .refl _
      | throw e => 
        simp only [Res.ok_bind, fillCostMap_cons, hq, hp, Res.throw_bind]
        exact ⟨fun _ h => (by cases h), fun _ h => (by cases h)⟩
      | ub w => 
        simp only [Res.ok_bind, fillCostMap_cons, hq, hp, Res.ub_bind]
        exact ⟨fun _ h => (by cases h), fun _ h => (by cases h)⟩
    | throw e => 
      refine ⟨fun _ h => (by cases h), fun _ h => ?_⟩
      obtain ⟨_, _, h⟩ := Res.bind_eq_ok.1 h
      rw [fillCostMap_cons, hq] at h
      cases h
    | ub w =>
      refine ⟨fun _ h => (by cases h), fun _ h => ?_⟩
      obtain ⟨_, _, h⟩ := Res.bind_eq_ok.1 h
      rw [fillCostMap_cons, hq] at h
      cases h
  | trans h1 h2 ih1 ih2 =>
    exact (ih1 hn f).trans_id (ih2 (h1.pairwise hn fun h h' => h (SameEdge.symm h')) f)

end

end Pctsp
