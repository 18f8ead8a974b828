import Verif.Model.Gain
import Verif.Spec.Insertion
import Verif.Lemmas.Replace
import Verif.Lemmas.Bfs

/-! Helper lemmas: extension by unitary gain. -/

namespace Pctsp

variable {F : Type}

/-- Laws of IEEE comparisons, also with NaN and infinities (a number that compares greater than zero is not a NaN, so it
compares with any two ordered numbers). -/
structure FloatOps.Strict (O : FloatOps F) : Prop where
  irrefl : ∀ a, O.lt a a = false
  trans : ∀ a b c, O.lt a b = true → O.lt b c = true → O.lt a c = true
  cotrans : ∀ a b c, O.lt a c = true → O.lt O.zero b = true → O.lt a b = true ∨ O.lt b c = true

theorem FloatOps.Lawful.strict {O : FloatOps F} (h : O.Lawful) : O.Strict := by
  refine ⟨?_, ?_, ?_⟩
  · intro a
    cases e : O.lt a a with
    | false => rfl
    | true => have := h.asymm _ _ e; rw [e] at this; exact this
  · intro a b c h1 h2
    cases e : O.lt a c with
    | true => rfl
    | false => have := h.negTrans a c b ⟨_, .inr h2⟩ e (h.asymm _ _ h2); rw [h1] at this; simp at this
  · intro a b c h1 h0
    cases e : O.lt a b with
    | true => exact Or.inl rfl
    | false =>
      right
      cases e' : O.lt b c with
      | true => rfl
      | false => have := h.negTrans a b c ⟨_, .inr h0⟩ e e'; rw [h1] at this; simp at this

theorem FloatOps.Strict.irrefl' {O : FloatOps F} (h : O.Strict) {a : F} (e : O.lt a a = true) : False := by
  rw [h.irrefl] at e; simp at e

theorem mem_consec_cons {α : Type} {u w : α} {rest : List α} {p : α × α} :
    p ∈ consec (u :: w :: rest) ↔ p = (u, w) ∨ p ∈ consec (w :: rest) := by
  simp [consec]

theorem mem_consec_iff_split {α : Type} {a b : α} {l : List α} : (a, b) ∈ consec l ↔ ∃ A B, l = A ++ a :: b :: B := by
  constructor
  · intro h
    induction l with
    | nil => simp [consec] at h
    | cons u l ih =>
      cases l with
      | nil => simp [consec] at h
      | cons w l =>
        rcases mem_consec_cons.1 h with h | h
        · simp at h; obtain ⟨rfl, rfl⟩ := h; exact ⟨[], l, rfl⟩
        · obtain ⟨A, B, e⟩ := ih h
          exact ⟨u :: A, B, by rw [e]; rfl⟩
  · rintro ⟨A, B, rfl⟩
    induction A with
    | nil => simp [consec]
    | cons u A ih =>
      cases A with
      | nil => exact mem_consec_cons.2 (Or.inr ih)
      | cons w A => exact mem_consec_cons.2 (Or.inr ih)

theorem gainLoop_spec (O : FloatOps F) (hO : O.Strict) {g : Graph} {cost prize : Nat → Int} {v : Nat} (hv : v < g.n)
    (i u : Nat) (rest : List Nat) (hlt : ∀ x ∈ u :: rest, x < g.n) (hw : IsWalk g (u :: rest)) (st : GainEntry F) :
    ∃ e, gainLoop O g cost prize v i u rest st = .ok e ∧
      (∀ a b, (a, b) ∈ consec (u :: rest) → Adj g a v → Adj g v b →
          O.lt e.value (gainBetween O g cost prize v a b) = false) ∧
      e.value = (consec (u :: rest)).foldl (fun m p =>
        if Adj g p.1 v ∧ Adj g v p.2 ∧ O.lt m (gainBetween O g cost prize v p.1 p.2) = true
        then gainBetween O g cost prize v p.1 p.2 else m) st.value ∧
      (e = st ∨
       O.lt st.value e.value = true ∧ ∃ A a b B, u :: rest = A ++ a :: b :: B ∧ e.index = some (i + A.length) ∧
          Adj g a v ∧ Adj g v b ∧ e.value = gainBetween O g cost prize v a b) := by
  induction rest generalizing i u st with
  | nil =>
    refine ⟨st, rfl, ?_, rfl, Or.inl rfl⟩
    intro a b h
    simp [consec] at h
  | cons w rest ih =>
    have hu : u < g.n := hlt u (by simp)
    have hadj : Adj g u w := hw (u, w) (by simp [consec])
    have hw' : IsWalk g (w :: rest) := by
      have := (isWalk_append (l := [u]) (a := w) (m := rest)).1 (by simpa using hw)
      exact this.2
    have hlt' : ∀ x ∈ w :: rest, x < g.n := fun x hx => hlt x (List.mem_cons_of_mem _ hx)
    obtain ⟨euw, heuw⟩ := Option.isSome_iff_exists.1 (edgeIdx_isSome_iff.2 hadj)
    have hcons : consec (u :: w :: rest) = (u, w) :: consec (w :: rest) := rfl
    rw [hcons, List.foldl_cons]
    have hstep : ∀ st' : GainEntry F,
       (st' = st ∧ ¬ (Adj g u v ∧ Adj g v w ∧ O.lt st.value (gainBetween O g cost prize v u w) = true) ∨
        st' = { value := gainBetween O g cost prize v u w, index := some i } ∧
        (Adj g u v ∧ Adj g v w ∧ O.lt st.value (gainBetween O g cost prize v u w) = true)) →
       ∃ e, gainLoop O g cost prize v (i + 1) w rest st' = .ok e ∧
        (∀ a b, (a, b) ∈ (u, w) :: consec (w :: rest) → Adj g a v → Adj g v b →
          O.lt e.value (gainBetween O g cost prize v a b) = false) ∧
        e.value = (consec (w :: rest)).foldl (fun m p =>
        if Adj g p.1 v ∧ Adj g v p.2 ∧ O.lt m (gainBetween O g cost prize v p.1 p.2) = true
        then gainBetween O g cost prize v p.1 p.2 else m)
          (if Adj g (u, w).1 v ∧ Adj g v (u, w).2 ∧ O.lt st.value (gainBetween O g cost prize v (u, w).1 (u, w).2) = true
        then gainBetween O g cost prize v (u, w).1 (u, w).2 else st.value) ∧
        (e = st ∨
          O.lt st.value e.value = true ∧ ∃ A a b B, u :: w :: rest = A ++ a :: b :: B ∧ e.index = some (i + A.length) ∧
          Adj g a v ∧ Adj g v b ∧ e.value = gainBetween O g cost prize v a b) := by
      intro st' hst'
      obtain ⟨e, h1, h2, h3, h4⟩ := ih (i + 1) w hlt' hw' st'
      refine ⟨e, h1, ?_, ?_, ?_⟩
      · intro a b hab ha hb
        rcases List.mem_cons.1 hab with hab | hab
        · simp at hab
          obtain ⟨rfl, rfl⟩ := hab
          cases hc : O.lt e.value (gainBetween O g cost prize v a b) with
          | false => rfl
          | true =>
            exfalso
            rcases hst' with ⟨rfl, hn⟩ | ⟨rfl, -, -, hp⟩
            · apply hn
              refine ⟨ha, hb, ?_⟩
              rcases h4 with rfl | ⟨h4, -⟩
              · exact hc
              · exact hO.trans _ _ _ h4 hc
            · rcases h4 with rfl | ⟨h4, -⟩
              · exact hO.irrefl' hc
              · exact hO.irrefl' (hO.trans _ _ _ h4 hc)
        · exact h2 a b hab ha hb
      · rw [h3]
        congr 1
        rcases hst' with ⟨rfl, hn⟩ | ⟨rfl, hp⟩
        · rw [if_neg hn]
        · rw [if_pos hp]
      · rcases hst' with ⟨rfl, hn⟩ | ⟨rfl, hp⟩
        · rcases h4 with h4 | ⟨h4, A, a, b, B, h5, h6, h7⟩
          · exact Or.inl h4
          · right
            exact ⟨h4, u :: A, a, b, B, by rw [h5]; rfl, by rw [h6]; simp; omega, h7⟩
        · right
          rcases h4 with rfl | ⟨h4, A, a, b, B, h5, h6, h7⟩
          · exact ⟨hp.2.2, [], u, w, rest, rfl, by simp, hp.1, hp.2.1, rfl⟩
          · exact ⟨hO.trans _ _ _ hp.2.2 h4, u :: A, a, b, B, by rw [h5]; rfl, by rw [h6]; simp; omega, h7⟩
    rw [gainLoop]
    simp only [Graph.edge, hu, hv, if_true, Res.ok_bind, heuw]
    cases hvw : g.edgeIdx v w with
    | none =>
      simp only
      exact hstep st (Or.inl ⟨rfl, fun h => edgeIdx_eq_none_iff.1 hvw h.2.1⟩)
    | some evw =>
      cases huv : g.edgeIdx u v with
      | none =>
        simp only
        exact hstep st (Or.inl ⟨rfl, fun h => edgeIdx_eq_none_iff.1 huv h.1⟩)
      | some euv =>
        simp only
        have hgain : unitaryGain O (prize v) (cost euw) (cost euv) (cost evw) = gainBetween O g cost prize v u w := by
          rw [unitaryGain, gainBetween, pairCost_eq huv, pairCost_eq hvw, pairCost_eq heuw]
        have a1 : Adj g u v := edgeIdx_isSome_iff.1 (by simp [huv])
        have a2 : Adj g v w := edgeIdx_isSome_iff.1 (by simp [hvw])
        rw [hgain]
        refine hstep _ ?_
        split
        · rename_i h; exact Or.inr ⟨rfl, a1, a2, h⟩
        · rename_i h; exact Or.inl ⟨rfl, fun h' => h h'.2.2⟩

theorem gainOfVertex_spec (O : FloatOps F) (hO : O.Strict) {g : Graph} {cost prize : Nat → Int} {v : Nat} (hv : v < g.n)
    {t : List Nat} (hne : t ≠ []) (hlt : ∀ x ∈ t, x < g.n) (hw : IsWalk g t) :
    ∃ e, unitaryGainOfVertex O g t cost prize v = .ok e ∧ e.value = maxGain O g cost prize t v ∧
      (∀ a b, (a, b) ∈ consec t → Adj g a v → Adj g v b → O.lt e.value (gainBetween O g cost prize v a b) = false) ∧
      (e.value = O.zero ∧ e.index = none ∨
       O.lt O.zero e.value = true ∧ ∃ A a b B, t = A ++ a :: b :: B ∧ e.index = some A.length ∧
          Adj g a v ∧ Adj g v b ∧ e.value = gainBetween O g cost prize v a b) := by
  cases t with
  | nil => exact absurd rfl hne
  | cons u rest =>
    obtain ⟨e, h1, h2, h3, h4⟩ := gainLoop_spec O hO (cost := cost) (prize := prize) hv 0 u rest hlt hw
      { value := O.zero, index := none }
    refine ⟨e, h1, h3, h2, ?_⟩
    rcases h4 with rfl | ⟨h4, A, a, b, B, h5, h6, h7⟩
    · exact Or.inl ⟨rfl, rfl⟩
    · exact Or.inr ⟨h4, A, a, b, B, h5, by simpa using h6, h7⟩

theorem biggestGainLoop_spec (O : FloatOps F) (hO : O.Strict) {g : Graph} {cost prize : Nat → Int}
    {t : List Nat} (hne : t ≠ []) (hlt : ∀ x ∈ t, x < g.n) (hw : IsWalk g t) (inTour : Nat → Bool) (vs : List Nat)
    (hvs : ∀ v ∈ vs, v < g.n) (gm : GainMap F) (best : Option Nat) (bg : F)
    (hst : best = none ∧ bg = O.zero ∨ ∃ v e, best = some v ∧ gm v = some e ∧ inTour v = false ∧ v < g.n ∧
      unitaryGainOfVertex O g t cost prize v = .ok e ∧ e.value = bg ∧ O.lt O.zero bg = true) :
    ∃ gm' best' bg', biggestGainLoop O g t cost prize inTour vs (gm, best, bg) = .ok (gm', best', bg') ∧
      (∀ v ∈ vs, inTour v = false → ∃ e, gm' v = some e ∧ unitaryGainOfVertex O g t cost prize v = .ok e ∧
        O.lt bg' e.value = false) ∧
      (∀ v, v ∉ vs ∨ inTour v = true → gm' v = gm v) ∧
      (bg' = bg ∨ O.lt bg bg' = true) ∧
      (best' = none ∧ bg' = O.zero ∨
       ∃ v e, best' = some v ∧ gm' v = some e ∧ inTour v = false ∧ v < g.n ∧
        unitaryGainOfVertex O g t cost prize v = .ok e ∧ e.value = bg' ∧ O.lt O.zero bg' = true) := by
  induction vs generalizing gm best bg with
  | nil => exact ⟨gm, best, bg, rfl, by simp, by simp, Or.inl rfl, hst⟩
  | cons x vs ih =>
    have hvs' : ∀ v ∈ vs, v < g.n := fun v hv => hvs v (List.mem_cons_of_mem _ hv)
    rw [biggestGainLoop]
    cases hx : inTour x with
    | true =>
      rw [if_pos rfl]
      obtain ⟨gm', best', bg', h1, h2, h3, h4⟩ := ih hvs' gm best bg hst
      refine ⟨gm', best', bg', h1, ?_, ?_, h4⟩
      · intro v hv hin
        rcases List.mem_cons.1 hv with rfl | hv
        · rw [hx] at hin; simp at hin
        · exact h2 v hv hin
      · intro v hv
        apply h3
        rcases hv with hv | hv
        · exact Or.inl fun h => hv (List.mem_cons_of_mem _ h)
        · exact Or.inr hv
    | false =>
      rw [if_neg (by simp)]
      have hxn := hvs x (by simp)
      obtain ⟨e, he, -⟩ := gainOfVertex_spec O hO (cost := cost) (prize := prize) hxn hne hlt hw
      rw [he]
      simp only [Res.ok_bind]
      have key : ∀ best1 bg1, (best1 = none ∧ bg1 = O.zero ∨ ∃ v e', best1 = some v ∧ upd gm x (some e) v = some e' ∧ inTour v = false ∧
            v < g.n ∧ unitaryGainOfVertex O g t cost prize v = .ok e' ∧ e'.value = bg1 ∧ O.lt O.zero bg1 = true) →
          (bg1 = bg ∨ O.lt bg bg1 = true) → O.lt bg1 e.value = false →
          ∃ gm' best' bg', biggestGainLoop O g t cost prize inTour vs (upd gm x (some e), best1, bg1) = .ok (gm', best', bg') ∧
      (∀ v ∈ x :: vs, inTour v = false → ∃ e, gm' v = some e ∧ unitaryGainOfVertex O g t cost prize v = .ok e ∧
        O.lt bg' e.value = false) ∧
      (∀ v, v ∉ x :: vs ∨ inTour v = true → gm' v = gm v) ∧
      (bg' = bg ∨ O.lt bg bg' = true) ∧
      (best' = none ∧ bg' = O.zero ∨
       ∃ v e, best' = some v ∧ gm' v = some e ∧ inTour v = false ∧ v < g.n ∧
        unitaryGainOfVertex O g t cost prize v = .ok e ∧ e.value = bg' ∧ O.lt O.zero bg' = true) := by
        intro best1 bg1 hst1 hge hle
        obtain ⟨gm', best', bg', h1, h2, h3, h4, h5⟩ := ih hvs' (upd gm x (some e)) best1 bg1 hst1
        refine ⟨gm', best', bg', h1, ?_, ?_, ?_, h5⟩
        · intro v hv hin
          by_cases hvv : v ∈ vs
          · exact h2 v hvv hin
          · rcases List.mem_cons.1 hv with rfl | hv
            · refine ⟨e, ?_, he, ?_⟩
              · rw [h3 v (Or.inl hvv)]; simp [upd]
              · cases hc : O.lt bg' e.value with
                | false => rfl
                | true =>
                  rcases h4 with rfl | h4
                  · rw [hle] at hc; simp at hc
                  · rw [hO.trans _ _ _ h4 hc] at hle; simp at hle
            · exact absurd hv hvv
        · intro v hv
          have hne : v ≠ x := by
            rintro rfl
            rcases hv with hv | hv
            · simp at hv
            · rw [hx] at hv; simp at hv
          rw [h3 v (by rcases hv with hv | hv
                       · exact Or.inl fun h => hv (List.mem_cons_of_mem _ h)
                       · exact Or.inr hv)]
          simp [upd, hne]
        · rcases hge with rfl | hge
          · exact h4
          · right
            rcases h4 with rfl | h4
            · exact hge
            · exact hO.trans _ _ _ hge h4
      cases hb : O.lt bg e.value with
      | true =>
        rw [if_pos rfl]
        have hpos : O.lt O.zero e.value = true := by
          rcases hst with ⟨-, h⟩ | ⟨_, _, _, _, _, _, _, _, h⟩
          · rw [← h]; exact hb
          · exact hO.trans _ _ _ h hb
        exact key (some x) e.value (Or.inr ⟨x, e, rfl, by simp [upd], hx, hxn, he, rfl, hpos⟩) (Or.inr hb) (hO.irrefl _)
      | false =>
        rw [if_neg (by simp)]
        refine key best bg ?_ (Or.inl rfl) hb
        rcases hst with h | ⟨v, e', h1, h2, h3, h4, h5, h6, h7⟩
        · exact Or.inl h
        · right
          by_cases hvx : v = x
          · subst hvx
            rw [h5] at he
            obtain rfl : e' = e := by simpa using he
            exact ⟨v, e', h1, by simp [upd], h3, h4, h5, h6, h7⟩
          · exact ⟨v, e', h1, by simp [upd, hvx, h2], h3, h4, h5, h6, h7⟩

theorem inTour_false {inTour : Nat → Bool} {t : List Nat} (hin : ∀ v, inTour v = true ↔ v ∈ t) {v : Nat} : inTour v = false ↔ v ∉ t := by
  rw [← hin]; simp

theorem findBiggest_spec (O : FloatOps F) (hO : O.Strict) {g : Graph} {cost prize : Nat → Int}
    {t : List Nat} (hne : t ≠ []) (hlt : ∀ x ∈ t, x < g.n) (hw : IsWalk g t) (inTour : Nat → Bool)
    (hin : ∀ v, inTour v = true ↔ v ∈ t) (gm : GainMap F) :
    ∃ gm' best, findVertexWithBiggestGain O g t cost prize inTour gm = .ok (gm', best) ∧
      (∀ v < g.n, v ∉ t → ∃ e, gm' v = some e ∧ e.value = maxGain O g cost prize t v) ∧
      (best = none ∧ (∀ v a b, Insertable g t v a b → O.lt O.zero (gainBetween O g cost prize v a b) = false) ∨
       ∃ v e a b t', best = some v ∧ gm' v = some e ∧ e.value = gainBetween O g cost prize v a b ∧
        insertBiggestGainVertex t v gm' = .ok t' ∧ InsertsBetween g v a b t t' ∧ BestInsertion O g cost prize t v a b) := by
  obtain ⟨gm', best, bg, h1, h2, h3, -, h4⟩ := biggestGainLoop_spec O hO (cost := cost) (prize := prize) hne hlt hw inTour
    (List.range g.n) (by simp) gm none O.zero (Or.inl ⟨rfl, rfl⟩)
  have hall : ∀ v a b, Insertable g t v a b → O.lt bg (gainBetween O g cost prize v a b) = false := by
    intro v a b hi
    obtain ⟨e, -, he, hle⟩ := h2 v (by simpa using hi.vertex) ((inTour_false hin).2 hi.new)
    obtain ⟨e', he', -, hmax, -⟩ := gainOfVertex_spec O hO (cost := cost) (prize := prize) hi.vertex hne hlt hw
    rw [he] at he'
    obtain rfl : e = e' := by simpa using he'
    have := hmax a b hi.pair hi.left hi.right
    cases hc : O.lt bg (gainBetween O g cost prize v a b) with
    | false => rfl
    | true =>
      obtain ⟨e', he', -, -, hcase⟩ := gainOfVertex_spec O hO (cost := cost) (prize := prize) hi.vertex hne hlt hw
      rw [he] at he'
      obtain rfl : e = e' := by simpa using he'
      have h0 : bg = O.zero ∨ O.lt O.zero bg = true := by
        rcases h4 with ⟨-, h⟩ | ⟨_, _, _, _, _, _, _, _, h⟩
        · exact Or.inl h
        · exact Or.inr h
      exfalso
      rcases hcase with ⟨hz, -⟩ | ⟨hp, -⟩
      · rw [hz] at this
        rcases h0 with rfl | h0
        · rw [this] at hc; simp at hc
        · rw [hO.trans _ _ _ h0 hc] at this; simp at this
      · rcases hO.cotrans _ _ _ hc hp with h | h
        · rw [h] at hle; simp at hle
        · rw [h] at this; simp at this
  refine ⟨gm', best, by rw [findVertexWithBiggestGain, h1]; rfl, ?_, ?_⟩
  · intro v hv hvt
    obtain ⟨e, he1, he2, -⟩ := h2 v (by simpa using hv) ((inTour_false hin).2 hvt)
    obtain ⟨e', he', hval, -⟩ := gainOfVertex_spec O hO (cost := cost) (prize := prize) hv hne hlt hw
    rw [he2] at he'
    obtain rfl : e = e' := by simpa using he'
    exact ⟨e, he1, hval⟩
  rcases h4 with ⟨h4, rfl⟩ | ⟨v, e, h4, h5, h6, h7, h8, h9, h10⟩
  · exact Or.inl ⟨h4, hall⟩
  · right
    obtain ⟨e', he', -, -, hc⟩ := gainOfVertex_spec O hO (cost := cost) (prize := prize) h7 hne hlt hw
    rw [h8] at he'
    obtain rfl : e = e' := by simpa using he'
    have hvt := (inTour_false hin).1 h6
    rcases hc with ⟨hc, -⟩ | ⟨-, A, a, b, B, q1, q2, q3, q4, q5⟩
    · rw [← h9, hc, hO.irrefl] at h10; simp at h10
    · refine ⟨v, e, a, b, A ++ a :: v :: b :: B, h4, h5, q5, ?_, ⟨⟨A, B, q1, rfl⟩, hvt, h7, q3, q4⟩,
        ⟨⟨mem_consec_iff_split.2 ⟨A, B, q1⟩, hvt, h7, q3, q4⟩, by rw [← q5, h9]; exact h10, ?_⟩⟩
      · have hl : A.length + 1 ≤ t.length := by rw [q1]; simp
        simp only [insertBiggestGainVertex, h5, q2, hl, if_true, Res.ok.injEq]
        have e1 : t = (A ++ [a]) ++ b :: B := by rw [q1]; simp
        rw [e1, List.take_left' (by simp), List.drop_left' (by simp)]
        simp
      · intro v' a' b' hi
        rw [← q5, h9]
        exact hall v' a' b' hi

theorem GainStep.mem_iff {g : Graph} {v : Nat} {t t' : List Nat} (h : GainStep g v t t') (x : Nat) :
    x ∈ t' ↔ x = v ∨ x ∈ t := by
  obtain ⟨a, b, ⟨A, B, rfl, rfl⟩, -⟩ := h
  simp only [List.mem_append, List.mem_cons]; tauto

theorem GainStep.isWalk {g : Graph} {v : Nat} {t t' : List Nat} (h : GainStep g v t t') (hw : IsWalk g t) : IsWalk g t' := by
  obtain ⟨a, b, ⟨A, B, rfl, rfl⟩, -, -, h1, h2⟩ := h
  have e1 : A ++ a :: b :: B = A ++ a :: ([] ++ b :: B) := rfl
  have e2 : A ++ a :: v :: b :: B = A ++ a :: ([v] ++ b :: B) := rfl
  rw [e1, isWalk_mid] at hw
  rw [e2, isWalk_mid]
  refine ⟨hw.1, ?_, hw.2.2⟩
  intro q hq
  simp [consec] at hq
  rcases hq with rfl | rfl
  · exact h1
  · exact h2

theorem GainStep.isTour {g : Graph} {v r : Nat} {t t' : List Nat} (h : GainStep g v t t') (ht : IsTour g r t) : IsTour g r t' := by
  have hw := h.isWalk ht.walk
  obtain ⟨a, b, ⟨A, B, rfl, rfl⟩, hv, -, h1, h2⟩ := h
  refine replace_tour (X := [v]) (Y := []) ht ?_ (by simp) ?_
  · have e2 : A ++ a :: v :: b :: B = A ++ a :: ([v] ++ b :: B) := rfl
    rw [e2, isWalk_mid] at hw
    exact hw.2.1
  · intro y hy; simp at hy; subst hy; exact hv

theorem GainStep.tourPrize {g : Graph} {v : Nat} {t t' : List Nat} (h : GainStep g v t t') (prize : Nat → Int) :
    tourPrize prize t' = tourPrize prize t + prize v := by
  obtain ⟨a, b, ⟨A, B, rfl, rfl⟩, -⟩ := h
  have := tourPrize_mid prize A a [v] [] b B
  simp [prizeSum] at this
  omega

theorem GainStep.ne_nil {g : Graph} {v : Nat} {t t' : List Nat} (h : GainStep g v t t') : t' ≠ [] := by
  obtain ⟨a, b, ⟨A, B, rfl, rfl⟩, -⟩ := h; simp

theorem GainStep.inTour_upd {g : Graph} {v : Nat} {t t' : List Nat} (h : GainStep g v t t') {inTour : Nat → Bool}
    (hin : ∀ v, inTour v = true ↔ v ∈ t) : ∀ x, upd inTour v true x = true ↔ x ∈ t' := by
  intro x
  rw [h.mem_iff]
  by_cases e : x = v
  · simp [upd, e]
  · simp [upd, e, hin]

theorem GainStep.lt {g : Graph} {v : Nat} {t t' : List Nat} (h : GainStep g v t t') (hlt : ∀ x ∈ t, x < g.n) : ∀ x ∈ t', x < g.n := by
  intro x hx
  rcases (h.mem_iff x).1 hx with rfl | hx
  · obtain ⟨_, _, h⟩ := h; exact h.vertex
  · exact hlt x hx

/-- Number of vertices outside the tour. -/
def outsideCount (g : Graph) (t : List Nat) : Nat := (List.range g.n).countP fun x => decide (x ∉ t)

theorem GainStep.outside {g : Graph} {v : Nat} {t t' : List Nat} (h : GainStep g v t t') :
    outsideCount g t' + 1 = outsideCount g t := by
  have hv : v ∉ t ∧ v < g.n := by
    obtain ⟨_, _, h⟩ := h; exact ⟨h.new, h.vertex⟩
  have := countP_upd (List.nodup_range (n := g.n)) (m := fun x => decide (x ∈ t)) (v := v) (by simpa using hv.2) (by simpa using hv.1)
  rw [outsideCount, outsideCount, show (fun x => decide (x ∉ t)) = fun w => !decide (w ∈ t) by funext w; simp, ← this]
  congr 1
  apply List.countP_congr
  intro x _
  have := h.inTour_upd (inTour := fun x => decide (x ∈ t)) (by simp) x
  simp only [decide_not, Bool.not_eq_true', decide_eq_false_iff_not]
  rw [← this]; simp

theorem calculateAverageGain_eq (O : FloatOps F) {g : Graph} {cost prize : Nat → Int} {t : List Nat} {inTour : Nat → Bool}
    (hin : ∀ v, inTour v = true ↔ v ∈ t) {gm : GainMap F}
    (hgm : ∀ v < g.n, v ∉ t → ∃ e, gm v = some e ∧ e.value = maxGain O g cost prize t v) :
    calculateAverageGain O g.n inTour gm = averageGain O g cost prize t := by
  have key : ∀ l : List Nat, (∀ v ∈ l, v < g.n) →
      (l.filterMap (fun v => if inTour v then none else gm v)).map GainEntry.value =
        (l.filter (fun v => decide (v ∉ t))).map (maxGain O g cost prize t) := by
    intro l hl
    induction l with
    | nil => rfl
    | cons v l ih =>
      have ih := ih (fun x hx => hl x (List.mem_cons_of_mem _ hx))
      cases h : inTour v with
      | true => simp [h, (hin v).1 h, ih]
      | false =>
        have hv := (inTour_false hin).1 h
        obtain ⟨e, he, hval⟩ := hgm v (hl v (by simp)) hv
        simp [h, he, hv, hval, ih]
  have k := key (List.range g.n) (by simp)
  have kl := congrArg List.length k
  simp only [List.length_map] at kl
  unfold calculateAverageGain averageGain
  simp only
  rw [← k, ← kl, List.foldl_map]

/-- The loop of `extensionUnitaryGain`. -/
theorem extensionUnitaryGainLoop_spec (O : FloatOps F) (hO : O.Strict) {g : Graph} {cost prize : Nat → Int}
    (fuel : Nat) (avg : Option F) (inTour : Nat → Bool) (gm : GainMap F) (t : List Nat)
    (hne : t ≠ []) (hlt : ∀ x ∈ t, x < g.n) (hw : IsWalk g t) (hin : ∀ v, inTour v = true ↔ v ∈ t)
    (hf : outsideCount g t + 1 ≤ fuel) (thr : F) (hthr : thr = avg.getD (averageGain O g cost prize t)) :
    ∃ t', extensionUnitaryGainLoop O g cost prize fuel avg inTour gm t = .ok t' ∧
      GainSteps g (fun s v a b => BestInsertion O g cost prize s v a b ∧ O.lt thr (gainBetween O g cost prize v a b) = true) t t' ∧
      ((∀ v a b, Insertable g t' v a b → O.lt O.zero (gainBetween O g cost prize v a b) = false) ∨
       ∃ v a b, BestInsertion O g cost prize t' v a b ∧ O.lt thr (gainBetween O g cost prize v a b) = false) := by
  induction fuel generalizing avg inTour gm t with
  | zero => omega
  | succ fuel ih =>
    rw [extensionUnitaryGainLoop]
    obtain ⟨gm', best, h1, hgm, h2⟩ := findBiggest_spec O hO (cost := cost) (prize := prize) hne hlt hw inTour hin gm
    rw [h1]
    simp only [Res.ok_bind]
    rcases h2 with ⟨rfl, h3⟩ | ⟨v, e, a, b, t1, rfl, q1, q2, q3, q4, q5⟩
    · exact ⟨t, rfl, GainSteps.refl t, Or.inl h3⟩
    · have hst : GainStep g v t t1 := ⟨a, b, q4⟩
      simp only [q1, q2]
      have hfin : ∃ t', (if O.lt thr (gainBetween O g cost prize v a b) = true then do
            let tour' ← insertBiggestGainVertex t v gm'
            extensionUnitaryGainLoop O g cost prize fuel (some thr) (upd inTour v true) gm' tour'
          else pure t) = .ok t' ∧
          GainSteps g (fun s v a b => BestInsertion O g cost prize s v a b ∧ O.lt thr (gainBetween O g cost prize v a b) = true) t t' ∧
          ((∀ v a b, Insertable g t' v a b → O.lt O.zero (gainBetween O g cost prize v a b) = false) ∨
            ∃ v a b, BestInsertion O g cost prize t' v a b ∧ O.lt thr (gainBetween O g cost prize v a b) = false) := by
        cases hc : O.lt thr (gainBetween O g cost prize v a b) with
        | true =>
          rw [if_pos rfl, q3]
          simp only [Res.ok_bind]
          obtain ⟨t', r1, r2, r3⟩ := ih (some thr) (upd inTour v true) gm' t1 hst.ne_nil (hst.lt hlt) (hst.isWalk hw)
            (hst.inTour_upd hin) (by have := hst.outside; omega) rfl
          exact ⟨t', r1, GainSteps.step ⟨q5, hc⟩ q4 r2, r3⟩
        | false =>
          exact ⟨t, rfl, GainSteps.refl t, Or.inr ⟨v, a, b, q5, hc⟩⟩
      cases avg with
      | some x =>
        simp only [Option.getD] at hthr
        subst hthr
        exact hfin
      | none =>
        simp only [Option.getD] at hthr
        simp only [calculateAverageGain_eq O hin hgm, ← hthr]
        exact hfin

/-- The loop of `extensionUntilPrizeFeasible`. -/
theorem extensionUntilLoop_spec (O : FloatOps F) (hO : O.Strict) {g : Graph} {cost prize : Nat → Int} (quota : Int)
    (fuel attempts : Nat) (cur : Int) (inTour : Nat → Bool) (gm : GainMap F) (t : List Nat)
    (hne : t ≠ []) (hlt : ∀ x ∈ t, x < g.n) (hw : IsWalk g t) (hin : ∀ v, inTour v = true ↔ v ∈ t)
    (hcur : cur = tourPrize prize t) (hf : outsideCount g t + 2 ≤ fuel) (hatt : attempts + outsideCount g t ≤ g.n) :
    ∃ t', extensionUntilLoop O g cost prize quota fuel attempts true cur inTour gm t = .ok t' ∧
      GainSteps g (fun s v a b => BestInsertion O g cost prize s v a b ∧ tourPrize prize s < quota) t t' ∧
      (quota ≤ tourPrize prize t' ∨
        ∀ v a b, Insertable g t' v a b → O.lt O.zero (gainBetween O g cost prize v a b) = false) := by
  induction fuel generalizing attempts cur inTour gm t with
  | zero => omega
  | succ fuel ih =>
    rw [extensionUntilLoop]
    by_cases hq : cur < quota
    · rw [if_pos ⟨hq, rfl⟩]
      obtain ⟨gm', best, h1, -, h2⟩ := findBiggest_spec O hO (cost := cost) (prize := prize) hne hlt hw inTour hin gm
      rw [h1]
      simp only [Res.ok_bind]
      rcases h2 with ⟨rfl, h3⟩ | ⟨v, e, a, b, t1, rfl, q1, q2, q3, q4, q5⟩
      · exact ⟨t, rfl, GainSteps.refl t, Or.inr h3⟩
      · have hst : GainStep g v t t1 := ⟨a, b, q4⟩
        simp only
        rw [q3]
        simp only [Res.ok_bind]
        have hcnt := hst.outside
        have hat : decide (attempts + 1 ≤ g.n) = true := by
          simp only [decide_eq_true_eq]; omega
        rw [hat]
        obtain ⟨t', r1, r2, r3⟩ := ih (attempts + 1) (cur + prize v) (upd inTour v true) gm' t1 hst.ne_nil (hst.lt hlt)
          (hst.isWalk hw) (hst.inTour_upd hin) (by rw [hst.tourPrize, hcur]) (by omega) (by omega)
        exact ⟨t', r1, GainSteps.step ⟨q5, by omega⟩ q4 r2, r3⟩
    · rw [if_neg (by simp [hq])]
      exact ⟨t, rfl, GainSteps.refl t, Or.inl (by omega)⟩

/-- A pair that is not an edge makes the gain computation throw. -/
theorem gainLoop_throw (O : FloatOps F) {g : Graph} (cost prize : Nat → Int) {v : Nat} (hv : v < g.n)
    (i : Nat) (A : List Nat) (a b : Nat) (B : List Nat) (u : Nat) (rest : List Nat) (he : u :: rest = A ++ a :: b :: B)
    (hlt : ∀ x ∈ u :: rest, x < g.n) (hw : IsWalk g (A ++ [a])) (hab : ¬ Adj g a b) (st : GainEntry F) :
    gainLoop O g cost prize v i u rest st = .throw (.invalidArgument a b) := by
  induction A generalizing i u rest st with
  | nil =>
    simp at he
    obtain ⟨rfl, rfl⟩ := he
    have hu : u < g.n := hlt u (by simp)
    rw [gainLoop]
    simp only [Graph.edge, hu, hv, if_true, Res.ok_bind, edgeIdx_eq_none_iff.2 hab]
  | cons c A ih =>
    simp at he
    obtain ⟨rfl, rfl⟩ := he
    have hu : u < g.n := hlt u (by simp)
    obtain ⟨w, rest', hw'⟩ : ∃ w rest', A ++ a :: b :: B = w :: rest' := by
      cases A with
      | nil => exact ⟨a, b :: B, rfl⟩
      | cons x A => exact ⟨x, A ++ a :: b :: B, rfl⟩
    rw [hw']
    have hadj : Adj g u w := by
      cases A with
      | nil =>
        simp at hw'
        rw [← hw'.1]
        exact hw (u, a) (by simp [consec])
      | cons x A =>
        simp at hw'
        rw [← hw'.1]
        exact hw (u, x) (by simp [consec])
    have hwalk : IsWalk g (A ++ [a]) := by
      cases A with
      | nil => simp [IsWalk, consec]
      | cons x A =>
        have := (isWalk_append (l := [u]) (a := x) (m := A ++ [a])).1 (by simpa using hw)
        exact this.2
    obtain ⟨euw, heuw⟩ := Option.isSome_iff_exists.1 (edgeIdx_isSome_iff.2 hadj)
    have ih' := fun st => ih (i + 1) w rest' hw'.symm (by rw [← hw']; exact fun x hx => hlt x (List.mem_cons_of_mem _ hx)) hwalk st
    rw [gainLoop]
    simp only [Graph.edge, hu, hv, if_true, Res.ok_bind, heuw]
    cases hvw : g.edgeIdx v w with
    | none => simp only; exact ih' _
    | some evw =>
      cases huv : g.edgeIdx u v with
      | none => simp only; exact ih' _
      | some euv => simp only; exact ih' _

/-- If the gain of every outside vertex throws or is undefined, so is the search. -/
theorem biggestGainLoop_fail (O : FloatOps F) {g : Graph} (cost prize : Nat → Int) (t : List Nat) (inTour : Nat → Bool)
    (r : Res (GainEntry F)) (hr : r.isOk = false) (hall : ∀ v < g.n, inTour v = false → unitaryGainOfVertex O g t cost prize v = r)
    (vs : List Nat) (hvs : ∀ v ∈ vs, v < g.n) (hex : ∃ v ∈ vs, inTour v = false) (gm : GainMap F) (best : Option Nat) (bg : F) :
    biggestGainLoop O g t cost prize inTour vs (gm, best, bg) = (r >>= fun _ => .ub "") := by
  induction vs with
  | nil => simp at hex
  | cons x vs ih =>
    rw [biggestGainLoop]
    cases hx : inTour x with
    | true =>
      rw [if_pos rfl]
      refine ih (fun v hv => hvs v (List.mem_cons_of_mem _ hv)) ?_
      obtain ⟨v, hv, hin⟩ := hex
      rcases List.mem_cons.1 hv with rfl | hv
      · rw [hx] at hin; simp at hin
      · exact ⟨v, hv, hin⟩
    | false =>
      rw [if_neg (by simp), hall x (hvs x (by simp)) hx]
      cases r with
      | ok e => simp [Res.isOk] at hr
      | throw e => rfl
      | ub w => rfl

end Pctsp
