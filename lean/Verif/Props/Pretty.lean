import Verif.Lemmas.Pretty
import Verif.Props.Experiments

/-!
# C124, C125: the labels of tables, and the figure of the heuristics
-/

namespace Pctsp

/-- What the code does to a data frame, cell by cell. -/
theorem prettyFrame_rows (long : Bool) {d : Frame} (h : d.Shaped) {i : Nat} {r : List Cell × List Cell} (hr : d.rows[i]? = some r) :
    ∃ r', (prettyFrame long d).rows[i]? = some r' ∧
      (∀ (j : Nat) n c, d.columns[j]? = some n → r.2[j]? = some c → r'.2[j]? = some
        (let x := if n = "algorithm" ∨ n = "cost_function" ∨ n = "branching_strategy" then prettyValue long c else c
         if "branching_strategy" ∈ d.columns then branchingLabel x else x)) ∧
      ∀ (j : Nat) n c, d.index[j]? = some n → r.1[j]? = some c → r'.1[j]? = some
        (let x := if n = "algorithm" ∨ n = "cost_function" ∨ n = "branching_strategy" then prettyValue long c else c
         if n = "branching_strategy" then branchingLabel x else x) := by
  have s1 := prettyRound_shaped (long := long) h "algorithm"
  have s2 := prettyRound_shaped (long := long) s1 "cost_function"
  have e3 := prettyRound_eq (long := long) s2 "branching_strategy"
  have e2 := prettyRound_eq (long := long) s1 "cost_function"
  have e1 := prettyRound_eq (long := long) h "algorithm"
  have s3 := prettyRound_shaped (long := long) s2 "branching_strategy"
  have key : ∀ (names : List String) (cells : List Cell) (j : Nat) n c, names[j]? = some n → cells[j]? = some c →
      (replaceUnder names "branching_strategy" (prettyValue long) (replaceUnder names "cost_function" (prettyValue long)
        (replaceUnder names "algorithm" (prettyValue long) cells)))[j]? =
      some (if n = "algorithm" ∨ n = "cost_function" ∨ n = "branching_strategy" then prettyValue long c else c) := by
    intro names cells j n c hn hc
    rw [replaceUnder_getElem hn (replaceUnder_getElem hn (replaceUnder_getElem hn hc))]
    by_cases h1 : n = "algorithm"
    · subst h1; simp
    · by_cases h2 : n = "cost_function"
      · subst h2; simp
      · simp [h1, h2]
  set R : List Cell × List Cell :=
    (replaceUnder d.index "branching_strategy" (prettyValue long) (replaceUnder d.index "cost_function" (prettyValue long)
        (replaceUnder d.index "algorithm" (prettyValue long) r.1)),
     replaceUnder d.columns "branching_strategy" (prettyValue long) (replaceUnder d.columns "cost_function" (prettyValue long)
        (replaceUnder d.columns "algorithm" (prettyValue long) r.2))) with hR
  have hrow : (((d.prettyRound long "algorithm").prettyRound long "cost_function").prettyRound long "branching_strategy").rows[i]? = some R := by
    rw [e3, e2, e1]
    simp [hr, hR]
  have hcol : (((d.prettyRound long "algorithm").prettyRound long "cost_function").prettyRound long "branching_strategy").columns = d.columns := by
    rw [e3, e2, e1]
  have hidx : (((d.prettyRound long "algorithm").prettyRound long "cost_function").prettyRound long "branching_strategy").index = d.index := by
    rw [e3, e2, e1]
  generalize hD : ((d.prettyRound long "algorithm").prettyRound long "cost_function").prettyRound long "branching_strategy" = D at *
  have hp : (prettyFrame long d).rows = (let D := if "branching_strategy" ∈ d.columns then D.mapCells branchingLabel else D
      (if "branching_strategy" ∈ d.index then D.mapLevel "branching_strategy" branchingLabel else D).rows) := by
    simp only [prettyFrame, List.foldl_cons, List.foldl_nil, hD, hcol]
    split <;> simp only [Frame.mapCells, hidx]
  have hidx' : (if "branching_strategy" ∈ d.columns then D.mapCells branchingLabel else D).index = d.index := by
    split <;> simp [Frame.mapCells, hidx]
  have hrow' : (if "branching_strategy" ∈ d.columns then D.mapCells branchingLabel else D).rows[i]? =
      some (R.1, if "branching_strategy" ∈ d.columns then R.2.map branchingLabel else R.2) := by
    split <;> simp [Frame.mapCells, hrow]
  refine ⟨(if "branching_strategy" ∈ d.index then replaceUnder d.index "branching_strategy" branchingLabel R.1 else R.1,
    if "branching_strategy" ∈ d.columns then R.2.map branchingLabel else R.2), ?_, ?_, ?_⟩
  · rw [hp]
    dsimp only
    by_cases hb : "branching_strategy" ∈ d.index
    · rw [if_pos hb, if_pos hb]
      simp only [Frame.mapLevel, List.getElem?_map, hrow', hidx', Option.map_some]
    · rw [if_neg hb, if_neg hb, hrow']
  · intro j n c hn hc
    have := key _ _ j n c hn hc
    by_cases hb : "branching_strategy" ∈ d.columns
    · simp only [if_pos hb, hR, List.getElem?_map, this, Option.map_some]
    · simp only [if_neg hb, hR, this]
  · intro j n c hn hc
    have := key _ _ j n c hn hc
    by_cases hb : "branching_strategy" ∈ d.index
    · simp only [if_pos hb, hR, replaceUnder_getElem hn this]
    · have : n ≠ "branching_strategy" := fun h => hb (h ▸ List.mem_of_getElem? hn)
      simp only [if_neg hb, if_neg this, hR, key _ _ j n c hn hc]

/-- **C124.** The numbers of a table are kept, unless the branching strategy is one of its columns: then every 0, 1, 2 and 4, in whatever column, becomes the
name of a strategy. -/
theorem C124_numbers (long : Bool) {d : Frame} (h : d.Shaped) {i : Nat} {r : List Cell × List Cell} (hr : d.rows[i]? = some r) :
    ∃ r', (prettyFrame long d).rows[i]? = some r' ∧
      (∀ (j : Nat) q, r.2[j]? = some (.num q) →
        (r'.2[j]? = some (.num q) ↔ "branching_strategy" ∉ d.columns ∨ q ≠ 0 ∧ q ≠ 1 ∧ q ≠ 2 ∧ q ≠ 4)) ∧
      (∀ (j : Nat), r.2[j]? = some .nan → r'.2[j]? = some .nan) ∧
      ∀ (j : Nat) n q, d.index[j]? = some n → r.1[j]? = some (.num q) →
        (r'.1[j]? = some (.num q) ↔ n ≠ "branching_strategy" ∨ q ≠ 0 ∧ q ≠ 1 ∧ q ≠ 2 ∧ q ≠ 4) := by
  obtain ⟨r', h1, h2, h3⟩ := prettyFrame_rows long h hr
  have hl := (h r (List.mem_of_getElem? hr)).2
  have col : ∀ (j : Nat) c, r.2[j]? = some c → ∃ n, d.columns[j]? = some n := fun j c hc => by
    have := (List.getElem?_eq_some_iff.1 hc).1
    exact ⟨_, List.getElem?_eq_getElem (hl ▸ this)⟩
  have key : ∀ q : Rat, branchingLabel (.num q) = .num q ↔ q ≠ 0 ∧ q ≠ 1 ∧ q ≠ 2 ∧ q ≠ 4 := by
    intro q
    obtain ⟨b0, b1, b2, b4⟩ := branchingLabel_named
    by_cases q0 : q = 0
    · subst q0; simp [b0]
    by_cases q1 : q = 1
    · subst q1; simp [b1]
    by_cases q2 : q = 2
    · subst q2; simp [b2]
    by_cases q4 : q = 4
    · subst q4; simp [b4]
    simp [branchingLabel_other q0 q1 q2 q4, q0, q1, q2, q4]
  refine ⟨r', h1, fun j q hc => ?_, fun j hc => ?_, fun j n q hn hc => ?_⟩
  · obtain ⟨n, hn⟩ := col j _ hc
    rw [h2 j n _ hn hc]
    simp only [prettyValue, ite_self, Option.some.injEq]
    by_cases hb : "branching_strategy" ∈ d.columns
    · simp [hb, key]
    · simp [hb]
  · obtain ⟨n, hn⟩ := col j _ hc
    rw [h2 j n _ hn hc]
    simp [prettyValue, branchingLabel]
  · rw [h3 j n _ hn hc]
    simp only [prettyValue, ite_self, Option.some.injEq]
    by_cases hb : n = "branching_strategy"
    · simp [hb, key]
    · simp [hb]

/-- **C124.** Texts change only under the names `algorithm`, `cost_function` and `branching_strategy`.  There an algorithm gets its short or long name, the same
one in columns and in the index, and two different algorithms never the same one. -/
theorem C124_texts (long : Bool) {d : Frame} (h : d.Shaped) {i : Nat} {r : List Cell × List Cell} (hr : d.rows[i]? = some r) :
    ∃ r', (prettyFrame long d).rows[i]? = some r' ∧
      ∀ (names : List String) (old new : List Cell), (names, old, new) = (d.columns, r.2, r'.2) ∨ (names, old, new) = (d.index, r.1, r'.1) →
        ∀ (j : Nat) n s, names[j]? = some n → old[j]? = some (.text s) →
          (n ∉ ["algorithm", "cost_function", "branching_strategy"] → new[j]? = some (.text s)) ∧
          (n ∈ ["algorithm", "cost_function", "branching_strategy"] →
            (s ∉ "EUC_2D" :: algorithmLabels.map (·.1) → new[j]? = some (.text s)) ∧ (s = "EUC_2D" → new[j]? = some (.text "EUC")) ∧
            ∀ a ∈ algorithmLabels, s = a.1 → new[j]? = some (.text (if long then a.2.2 else a.2.1))) := by
  obtain ⟨r', h1, h2, h3⟩ := prettyFrame_rows long h hr
  have hnot : ∀ s, s ∉ "EUC_2D" :: algorithmLabels.map (·.1) → ((valueReplacements long).lookup s).getD s = s := by
    intro s hs
    by_cases hm : s = "MST"
    · subst hm; cases long <;> decide +kernel
    · have : (valueReplacements long).lookup s = none := by
        rw [List.lookup_eq_none_iff]
        intro p hp
        simp only [valueReplacements, List.mem_append, List.mem_map, List.mem_cons, List.not_mem_nil, or_false] at hp hs
        rcases hp with ⟨a, ha, rfl⟩ | rfl | rfl
        · have := fun he => hs (.inr ⟨a, ha, he⟩)
          simpa using fun he => this (Eq.symm he)
        · simpa using fun he => hs (.inl he)
        · simpa using hm
      rw [this]; rfl
  have hyes : ∀ a ∈ algorithmLabels, ((valueReplacements long).lookup a.1).getD a.1 = if long then a.2.2 else a.2.1 := by
    cases long <;> decide +kernel
  have heuc : ((valueReplacements long).lookup "EUC_2D").getD "EUC_2D" = "EUC" := by cases long <;> decide +kernel
  have htext : ∀ t (P : Prop) [Decidable P], (if P then branchingLabel (.text t) else .text t) = Cell.text t := fun t P _ => by split <;> rfl
  refine ⟨r', h1, ?_⟩
  intro names old new hcase j n s hn hc
  have hnew : new[j]? = some (if n = "algorithm" ∨ n = "cost_function" ∨ n = "branching_strategy" then
      .text (((valueReplacements long).lookup s).getD s) else .text s) := by
    rcases hcase with hcase | hcase <;> cases hcase
    · rw [h2 j n _ hn hc]
      by_cases hp : n = "algorithm" ∨ n = "cost_function" ∨ n = "branching_strategy"
      · simp only [if_pos hp, prettyValue, htext]
      · simp only [if_neg hp, htext]
    · rw [h3 j n _ hn hc]
      by_cases hp : n = "algorithm" ∨ n = "cost_function" ∨ n = "branching_strategy"
      · simp only [if_pos hp, prettyValue, htext]
      · simp only [if_neg hp, htext]
  rw [hnew]
  refine ⟨fun hn' => ?_, fun hn' => ?_⟩
  · rw [if_neg (by simpa using hn')]
  · rw [if_pos (by simpa using hn')]
    refine ⟨fun hs => by rw [hnot s hs], fun hs => by rw [hs, heuc], fun a ha hs => by rw [hs, hyes a ha]⟩

/-- **C124.** Different algorithms, strategies and columns are told apart by their names. -/
theorem C124_distinct : (algorithmLabels.map (·.1)).Nodup ∧ (algorithmLabels.map (·.2.1)).Nodup ∧ (algorithmLabels.map (·.2.2)).Nodup ∧
    (∀ p q : Rat, branchingLabel (.num p) = branchingLabel (.num q) → p = q) ∧
    ∀ s t, s ∈ prettyColumnNames.map (·.1) → t ∈ prettyColumnNames.map (·.1) → prettyName s = prettyName t → s = t := by
  refine ⟨by decide +kernel, by decide +kernel, by decide +kernel, fun p q hpq => ?_, ?_⟩
  · have key : ∀ q : Rat, q = 0 ∨ q = 1 ∨ q = 2 ∨ q = 4 ∨ branchingLabel (.num q) = .num q := by
      intro q
      by_cases q0 : q = 0
      · exact .inl q0
      by_cases q1 : q = 1
      · exact .inr (.inl q1)
      by_cases q2 : q = 2
      · exact .inr (.inr (.inl q2))
      by_cases q4 : q = 4
      · exact .inr (.inr (.inr (.inl q4)))
      exact .inr (.inr (.inr (.inr (branchingLabel_other q0 q1 q2 q4))))
    obtain ⟨b0, b1, b2, b4⟩ := branchingLabel_named
    rcases key p with rfl | rfl | rfl | rfl | hp <;> rcases key q with rfl | rfl | rfl | rfl | hq <;> simp_all
  · have : ∀ s ∈ prettyColumnNames.map (·.1), ∀ t ∈ prettyColumnNames.map (·.1), prettyName s = prettyName t → s = t := by decide +kernel
    exact fun s t hs ht => this s hs t ht

/-- **C124.** Headings with one level: the columns and the levels of the index stay where they are; each with an entry in the table of names gets that name, and
all others keep theirs. -/
theorem C124_headings (long : Bool) (d : Frame) :
    ((prettyFrame long d).columns.length = d.columns.length ∧ (prettyFrame long d).index.length = d.index.length) ∧
    (∀ (i : Nat) k v, (k, v) ∈ prettyColumnNames → (d.columns[i]? = some k → (prettyFrame long d).columns[i]? = some v) ∧
      (d.index[i]? = some k → (prettyFrame long d).index[i]? = some v)) ∧
    ∀ (i : Nat) k, k ∉ prettyColumnNames.map (·.1) → (d.columns[i]? = some k → (prettyFrame long d).columns[i]? = some k) ∧
      (d.index[i]? = some k → (prettyFrame long d).index[i]? = some k) := by
  have hr : ∀ (d : Frame) col, (d.prettyRound long col).columns = d.columns ∧ (d.prettyRound long col).index = d.index := by
    intro d col
    unfold Frame.prettyRound
    by_cases h1 : col ∈ d.columns <;> by_cases h2 : col ∈ d.index <;> simp [h1, h2, Frame.mapColumn, Frame.mapLevel]
  have hc : (prettyFrame long d).columns = d.columns.map prettyName ∧ (prettyFrame long d).index = d.index.map prettyName := by
    have h1 := hr d "algorithm"
    have h2 := hr (d.prettyRound long "algorithm") "cost_function"
    have h3 := hr ((d.prettyRound long "algorithm").prettyRound long "cost_function") "branching_strategy"
    rw [h2.1, h2.2, h1.1, h1.2] at h3
    generalize hD : ((d.prettyRound long "algorithm").prettyRound long "cost_function").prettyRound long "branching_strategy" = D at *
    simp only [prettyFrame, List.foldl_cons, List.foldl_nil, hD]
    by_cases h4 : "branching_strategy" ∈ d.columns <;> by_cases h5 : "branching_strategy" ∈ d.index <;>
      simp [Frame.mapCells, Frame.mapLevel, h3.1, h3.2, h4, h5]
  have hin : ∀ e ∈ prettyColumnNames, prettyName e.1 = e.2 := by decide +kernel
  have hout : ∀ k, k ∉ prettyColumnNames.map (·.1) → prettyName k = k := by
    intro k hk
    have : prettyColumnNames.lookup k = none := by
      rw [List.lookup_eq_none_iff]
      intro e he
      have := fun h : k = e.1 => hk (h ▸ List.mem_map_of_mem he)
      simpa using this
    simp [prettyName, this]
  rw [hc.1, hc.2]
  refine ⟨⟨List.length_map .., List.length_map ..⟩, fun i k v hkv => ?_, fun i k hk => ?_⟩
  · have : prettyName k = v := hin _ hkv
    simp only [List.getElem?_map]
    exact ⟨fun h => by rw [h, Option.map_some, this], fun h => by rw [h, Option.map_some, this]⟩
  · simp only [List.getElem?_map]
    exact ⟨fun h => by rw [h, Option.map_some, hout k hk], fun h => by rw [h, Option.map_some, hout k hk]⟩

/-- **C124.** Headings with several levels: they are right if and only if, for every label in use, the column at the position of that label has that label. -/
theorem C124_levels {l : ColumnLevel} {vs : List String} (hv : l.values = some vs) :
    (∃ l', prettyLevel l = some l' ∧ l'.values = some (vs.map prettyName)) ↔
      ∀ c ∈ l.codes, ∃ v w, vs[c]? = some v ∧ l.labels[c]? = some w ∧ prettyName v = prettyName w := by
  have hv' := mapM_getElem?_eq.1 hv
  have hp : prettyLevel l = some ⟨vs.map prettyName, l.codes⟩ := by rw [prettyLevel, hv]; rfl
  simp only [hp, Option.some.injEq, exists_eq_left']
  rw [ColumnLevel.values, mapM_getElem?_eq]
  constructor
  · rintro ⟨-, h⟩ c hc
    obtain ⟨j, hj, rfl⟩ := List.getElem_of_mem hc
    have e1 := h j _ (List.getElem?_eq_getElem hj)
    have e2 := hv'.2 j _ (List.getElem?_eq_getElem hj)
    rw [List.getElem?_map, List.getElem?_map] at e1
    have hj' : j < vs.length := hv'.1 ▸ hj
    rw [List.getElem?_eq_getElem hj'] at e1 e2
    cases hx : vs[l.codes[j]]? with
    | none => rw [hx] at e1; cases e1
    | some v =>
      rw [hx] at e1
      exact ⟨v, vs[j], rfl, e2, by simpa using e1⟩
  · intro h
    refine ⟨by simpa using hv'.1, fun j c hj => ?_⟩
    obtain ⟨v, w, h1, h2, h3⟩ := h c (List.mem_of_getElem? hj)
    have e2 := hv'.2 j c hj
    rw [h2] at e2
    rw [List.getElem?_map, List.getElem?_map, h1, ← e2, Option.map_some, Option.map_some, h3]

/-- **C124.** In the table of the covers the headings are right: its columns are all pairs of a cover and a measure, in order. -/
theorem C124_sorted (labels : List String) (n : Nat) :
    ∃ l', prettyLevel ⟨labels, sortedCodes (n + 1) labels.length⟩ = some l' ∧
      l'.values = some ((List.replicate (n + 1) (labels.map prettyName)).flatten) := by
  have hflat : ∀ k, (sortedCodes k labels.length).mapM (fun c => labels[c]?) = some ((List.replicate k labels).flatten) := by
    intro k
    have hrange : (List.range labels.length).mapM (fun c => labels[c]?) = some labels := by
      rw [mapM_getElem?_eq]
      refine ⟨by simp, fun j a hj => ?_⟩
      obtain ⟨h1, h2⟩ := List.getElem?_eq_some_iff.1 hj
      simp only [List.getElem_range] at h2
      rw [h2]
    induction k with
    | zero => simp [sortedCodes]
    | succ k ih =>
      have : sortedCodes (k + 1) labels.length = sortedCodes k labels.length ++ List.range labels.length := by
        simp [sortedCodes, List.range_succ]
      rw [this, List.mapM_append, ih, hrange, List.replicate_succ', List.flatten_append]
      simp
  have hv : (ColumnLevel.mk labels (sortedCodes (n + 1) labels.length)).values = some ((List.replicate (n + 1) labels).flatten) := hflat _
  have := (C124_levels hv).2 ?_
  · obtain ⟨l', h1, h2⟩ := this
    exact ⟨l', h1, by rw [h2, List.map_flatten, List.map_replicate]⟩
  · intro c hc
    have hlt : c < labels.length := by
      simp only [sortedCodes, List.mem_flatMap, List.mem_range] at hc
      obtain ⟨_, -, h⟩ := hc
      exact h
    refine ⟨labels[c], labels[c], ?_, List.getElem?_eq_getElem hlt, rfl⟩
    rw [List.replicate_succ, List.flatten_cons, List.getElem?_append_left hlt]
    exact List.getElem?_eq_getElem hlt

/-- **C124.** Without that order they are not: if the columns are as `unstack` leaves them, with more than one label below each measure, then every measure whose
position is below that number is headed as the first measure. -/
theorem C124_unstacked (labels : List String) (n : Nat) (hn : 1 < n) (hl : 1 < labels.length) (hd : prettyName labels[0] ≠ prettyName labels[1]) :
    ∃ vs, (ColumnLevel.mk labels (unstackedCodes n labels.length)).values = some vs ∧ vs[n]? = some labels[1] ∧
      ∃ l', prettyLevel ⟨labels, unstackedCodes n labels.length⟩ = some l' ∧ l'.values ≠ some (vs.map prettyName) ∧
        ∀ us, l'.values = some us → us[n]? = some (prettyName labels[0]) := by
  have hlt : ∀ c ∈ unstackedCodes n labels.length, c < labels.length := by
    intro c hc
    simp only [unstackedCodes, List.mem_flatMap, List.mem_range, List.mem_map] at hc
    obtain ⟨j, hj, _, -, rfl⟩ := hc
    exact hj
  have hv : (ColumnLevel.mk labels (unstackedCodes n labels.length)).values =
      some ((unstackedCodes n labels.length).map fun c => (labels[c]?).getD "") := by
    show (unstackedCodes n labels.length).mapM (fun c => labels[c]?) = _
    rw [mapM_getElem?_eq]
    refine ⟨by simp, fun j c hj => ?_⟩
    rw [List.getElem?_map, hj, Option.map_some, List.getElem?_eq_getElem (hlt c (List.mem_of_getElem? hj))]
    rfl
  have hcodes : ∃ rest, unstackedCodes n labels.length = List.replicate n 0 ++ (List.replicate n 1 ++ rest) := by
    obtain ⟨m, hm⟩ := Nat.exists_eq_add_of_lt hl
    refine ⟨(List.range m).flatMap fun j => (List.range n).map fun _ => j + 2, ?_⟩
    have e : labels.length = m + 1 + 1 := by omega
    simp only [unstackedCodes, e, List.range_succ_eq_map, List.flatMap_cons, List.flatMap_map, List.map_map, List.map_const']
    simp
  obtain ⟨rest, hrest⟩ := hcodes
  have g0 : (unstackedCodes n labels.length)[1]? = some 0 := by
    rw [hrest, List.getElem?_append_left (by simpa using hn), List.getElem?_replicate, if_pos hn]
  have gn : (unstackedCodes n labels.length)[n]? = some 1 := by
    rw [hrest, List.getElem?_append_right (by simp), List.getElem?_append_left (by simpa using by omega)]
    simp [List.getElem?_replicate]
    omega
  have v1 : ((unstackedCodes n labels.length).map fun c => (labels[c]?).getD "")[1]? = some labels[0] := by
    rw [List.getElem?_map, g0, Option.map_some, List.getElem?_eq_getElem (by omega)]; rfl
  have vn : ((unstackedCodes n labels.length).map fun c => (labels[c]?).getD "")[n]? = some labels[1] := by
    rw [List.getElem?_map, gn, Option.map_some, List.getElem?_eq_getElem hl]; rfl
  refine ⟨_, hv, vn, _, by rw [prettyLevel, hv]; rfl, fun h => ?_, fun us hus => ?_⟩
  · have := (mapM_getElem?_eq.1 h).2 n 1 gn
    rw [List.getElem?_map (f := prettyName), List.getElem?_map (f := prettyName), v1, vn] at this
    exact hd (by simpa using this)
  · have := (mapM_getElem?_eq.1 hus).2 n 1 gn
    rw [← this, List.getElem?_map (f := prettyName), v1]
    rfl

/-- **C124.** The one heading whose mathematics is not closed. -/
theorem C124_dollars (s : String) (hs : s.toList.count '$' % 2 = 0) : (prettyName s).toList.count '$' % 2 = 0 ↔ s ≠ "preprocessed_total_cost" := by
  have hall : ∀ p ∈ prettyColumnNames, p.2.toList.count '$' % 2 = 0 ∨ p.1 = "preprocessed_total_cost" := by decide +kernel
  constructor
  · rintro h rfl
    revert h
    decide +kernel
  · intro hne
    unfold prettyName
    cases h : prettyColumnNames.lookup s with
    | none => exact hs
    | some t =>
      obtain ⟨l₁, l₂, hl, -⟩ := List.lookup_eq_some_iff.1 h
      have := hall (s, t) (by rw [hl]; simp)
      exact this.resolve_right hne

/-- **C124.** The cover of a row of the table: the command ends without a table if one row has both covers, else different settings have different names.  No
experiment has such a row. -/
theorem C124_covers (rows : List (Bool × Bool)) :
    (ccNames rows = none ↔ (true, true) ∈ rows) ∧
    (∀ names, ccNames rows = some names → ∀ (i j : Nat) x y s, rows[i]? = some x → rows[j]? = some y → names[i]? = some s → names[j]? = some s → x = y) ∧
    ∀ {I : Instances} {gens : List Nat} {dataset : DatasetName} {name : ExperimentName} {ts : List Trial}, experimentTrials I gens dataset name = .ok ts →
      ccNames (ts.map fun t => (t.2.1.model.coverDisjoint, t.2.1.model.coverShortest)) ≠ none := by
  have iff : ∀ rows : List (Bool × Bool), ccNames rows = none ↔ (true, true) ∈ rows := by
    intro rows
    induction rows with
    | nil => simp [ccNames]
    | cons r rows ih =>
      obtain ⟨d, s⟩ := r
      simp only [ccNames, List.mapM_cons, List.mem_cons] at ih ⊢
      generalize List.mapM (fun r : Bool × Bool => ccName r.1 r.2) rows = t at ih ⊢
      rw [← ih]
      cases d <;> cases s <;> cases t <;> simp [ccName]
  refine ⟨iff rows, fun names h i j x y s hx hy hi hj => ?_, fun {I gens dataset name ts} h hn => ?_⟩
  · obtain ⟨-, h2⟩ := mapM_getElem?_eq.1 h
    have e1 := h2 i x hx
    have e2 := h2 j y hy
    rw [hi] at e1
    rw [hj] at e2
    exact ccName_inj e1 e2
  · obtain ⟨⟨d, p, f⟩, ht, he⟩ := List.mem_map.1 ((iff _).1 hn)
    obtain ⟨-, -, -, -, -, -, h7, -⟩ := C103_settings h ht
    simp only [Prod.mk.injEq] at he
    have := (h7 he.1).2.1
    rw [he.2] at this
    cases this

/-- **C124.** Writing all tables: a table whose file is missing is skipped, any other exception keeps all later tables from being written.  All eight tables are
tried if and only if nothing but a missing file goes wrong before the last. -/
theorem C124_all (outcome : Bool × TableKind → TableOutcome) :
    (∀ pre t post, allTables = pre ++ t :: post → (t ∈ (attemptTables outcome allTables).1 ↔ ∀ u ∈ pre, outcome u ≠ .failed)) ∧
    ((attemptTables outcome allTables).2 = true ↔ ∃ t, outcome t = .failed) := by
  have gen : ∀ (ts pre post : List (Bool × TableKind)) t, ts.Nodup → ts = pre ++ t :: post →
      (t ∈ (attemptTables outcome ts).1 ↔ ∀ u ∈ pre, outcome u ≠ .failed) := by
    intro ts pre
    induction pre generalizing ts with
    | nil =>
      rintro post t - rfl
      simp only [List.nil_append, attemptTables, List.not_mem_nil, false_imp_iff, implies_true, iff_true]
      split <;> simp
    | cons u pre ih =>
      rintro post t hnd rfl
      simp only [List.cons_append] at hnd ⊢
      obtain ⟨h1, h2⟩ := List.nodup_cons.1 hnd
      have htu : t ≠ u := fun h => h1 (by simp [h])
      simp only [attemptTables, List.mem_cons, forall_eq_or_imp]
      cases hu : outcome u with
      | failed => simp [htu]
      | written => simp [htu, ih _ post t h2 rfl]
      | absent => simp [htu, ih _ post t h2 rfl]
  have fin : ∀ ts : List (Bool × TableKind), (attemptTables outcome ts).2 = true ↔ ∃ t ∈ ts, outcome t = .failed := by
    intro ts
    induction ts with
    | nil => simp [attemptTables]
    | cons u ts ih =>
      simp only [attemptTables]
      cases hu : outcome u with
      | failed => simp [hu]
      | written => simp [hu, ih]
      | absent => simp [hu, ih]
  have hmem : ∀ t, t ∈ allTables := by rintro ⟨d, k⟩; cases d <;> cases k <;> decide
  refine ⟨fun pre t post h => gen _ pre post t (by decide) h, ?_⟩
  rw [fin]
  exact ⟨fun ⟨t, _, h⟩ => ⟨t, h⟩, fun ⟨t, h⟩ => ⟨t, hmem t, h⟩⟩

variable {K : Type} [DecidableEq K]

/-- The gap of a point lies in the range of one of the two panels. -/
def GapVisible (x : Ext) : Prop := ∃ q : Rat, x = .fin q ∧ (-(1 / 1000) ≤ q ∧ q ≤ 9 / 1000 ∨ 1 / 100 ≤ q ∧ q ≤ 100)

theorem panels_iff (x : Ext) : (inUpperPanel x || inLowerPanel x) = true ↔ GapVisible x := by
  cases x with
  | nan => simp [inUpperPanel, inLowerPanel, GapVisible]
  | inf s => simp [inUpperPanel, inLowerPanel, GapVisible]
  | fin q =>
    simp only [inUpperPanel, inLowerPanel, GapVisible, Bool.or_eq_true, decide_eq_true_eq, Ext.fin.injEq, exists_eq_left']
    norm_num
    exact or_comm

/-- Either figure with its cost function. -/
def figureOf (rows : List (FigureRow K)) (mst : Bool) : List (Box K) := if mst then (heuristicFigures rows).2 else (heuristicFigures rows).1

/-- See `figureOf`. -/
def figureCost (mst : Bool) : String := if mst then "MST" else "EUC_2D"

theorem figureOf_eq (rows : List (FigureRow K)) (mst : Bool) :
    ∃ legend, figureOf rows mst = (figureBoxes rows (figureCost mst) legend (uniqueValues (rows.map (·.kappa)))).1 := by
  cases mst
  · exact ⟨_, rfl⟩
  · exact ⟨_, rfl⟩

/-- **C125.** Up to five values of kappa: the points that can be seen are those of the rows with the cost function of the figure and one of the four drawn
algorithms whose gap is at most 0.009 or between 0.01 and 100, each once and under its own kappa and algorithm.  A gap strictly between 0.009 and 0.01, one above
100 and a missing one are not shown. -/
theorem C125_points (rows : List (FigureRow K)) (mst : Bool) (five : List K) (hlen : five.length ≤ 5)
    (hk : ∀ r ∈ rows, r.cost = figureCost mst → r.algorithm ∈ ["BFS-EC", "BFS-PEC", "SBL-EC", "SBL-PEC"] → r.kappa ∈ five)
    (keep : FigureRow K → Bool)
    (hkeep : ∀ r, keep r = true ↔ r.cost = figureCost mst ∧ r.algorithm ∈ ["BFS-EC", "BFS-PEC", "SBL-EC", "SBL-PEC"] ∧ GapVisible r.gap) :
    (visiblePoints (figureOf rows mst)).Perm ((rows.filter keep).map fun r => (r.kappa, r.algorithm, r.gap)) := by
  obtain ⟨legend, hf⟩ := figureOf_eq rows mst
  rw [hf]
  have hp := boxPoints_perm rows (figureCost mst) legend (uniqueValues_nodup (rows.map (·.kappa)))
  generalize (figureBoxes rows (figureCost mst) legend (uniqueValues (rows.map (·.kappa)))).1 = boxes at hp ⊢
  have hcat : ∀ p ∈ boxPoints boxes, columnShown ((figureCategories boxes).idxOf p.1) = true := by
    intro p hpm
    rw [columnShown_iff]
    refine lt_of_lt_of_le (List.idxOf_lt_length_iff.2 (mem_figureCategories.2 ⟨p, hpm, rfl⟩)) (le_trans (uniqueValues_length_le ?_) hlen)
    intro k hk'
    obtain ⟨p, hpm, rfl⟩ := mem_figureCategories.1 (mem_uniqueValues.2 hk')
    obtain ⟨r, hr, rfl⟩ := List.mem_map.1 (hp.mem_iff.1 hpm)
    simp only [List.mem_filter, Bool.and_eq_true, decide_eq_true_eq] at hr
    exact hk r hr.1 hr.2.1.2 hr.2.2
  rw [visiblePoints_eq]
  have e1 : ((boxPoints boxes).filter fun p => columnShown ((figureCategories boxes).idxOf p.1) && (inUpperPanel p.2.2 || inLowerPanel p.2.2)) =
      (boxPoints boxes).filter fun p => inUpperPanel p.2.2 || inLowerPanel p.2.2 :=
    List.filter_congr fun p hpm => by rw [hcat p hpm, Bool.true_and]
  rw [e1]
  refine (hp.filter _).trans (List.Perm.of_eq ?_)
  rw [List.filter_map, List.filter_filter]
  congr 1
  refine List.filter_congr fun r hr => ?_
  have hm : r.kappa ∈ uniqueValues (rows.map (·.kappa)) := mem_uniqueValues.2 (List.mem_map_of_mem hr)
  rw [Bool.eq_iff_iff, hkeep]
  simp only [Function.comp_def, Bool.and_eq_true, decide_eq_true_eq, panels_iff, hm, true_and]
  unfold figureAlgorithms
  tauto

/-- **C125.** Whatever the rows are: what can be seen is the point of a row, with a gap in a panel, and at most five values of kappa have points; all rows of
further values are missing. -/
theorem C125_columns (rows : List (FigureRow K)) (mst : Bool) :
    (∀ p ∈ visiblePoints (figureOf rows mst), GapVisible p.2.2 ∧ ∃ r ∈ rows, r.cost = figureCost mst ∧ p = (r.kappa, r.algorithm, r.gap)) ∧
    ∃ shown : List K, shown.length ≤ 5 ∧ ∀ p ∈ visiblePoints (figureOf rows mst), p.1 ∈ shown := by
  obtain ⟨legend, hf⟩ := figureOf_eq rows mst
  rw [hf]
  have hp := boxPoints_perm rows (figureCost mst) legend (uniqueValues_nodup (rows.map (·.kappa)))
  generalize (figureBoxes rows (figureCost mst) legend (uniqueValues (rows.map (·.kappa)))).1 = boxes at hp ⊢
  rw [visiblePoints_eq]
  refine ⟨fun p hpm => ?_, (figureCategories boxes).take 5, by simp, fun p hpm => ?_⟩
  · obtain ⟨h1, h2⟩ := List.mem_filter.1 hpm
    obtain ⟨r, hr, rfl⟩ := List.mem_map.1 (hp.mem_iff.1 h1)
    simp only [List.mem_filter, Bool.and_eq_true, decide_eq_true_eq] at hr h2
    exact ⟨(panels_iff _).1 h2.2, r, hr.1, hr.2.1.2, rfl⟩
  · obtain ⟨h1, h2⟩ := List.mem_filter.1 hpm
    simp only [Bool.and_eq_true] at h2
    have h5 := (columnShown_iff _).1 h2.1
    have hmem := mem_figureCategories.2 ⟨p, h1, rfl⟩
    rw [List.mem_take_iff_getElem]
    have hlt := List.idxOf_lt_length_iff.2 hmem
    exact ⟨_, by omega, List.getElem_idxOf hlt⟩

/-- **C125.** The legend: the first figure names each drawn algorithm once, the second names none. -/
theorem C125_legend (r : FigureRow K) (rows : List (FigureRow K)) :
    ((figureOf (r :: rows) false).filter (·.legend)).map (·.algorithm) = ["BFS-EC", "BFS-PEC", "SBL-EC", "SBL-PEC"] ∧
    ∀ b ∈ figureOf (r :: rows) true, b.legend = false := by
  have none_ : ∀ (all : List (FigureRow K)) cost ks, ∀ b ∈ (figureBoxes all cost false ks).1, b.legend = false := by
    intro all cost ks
    induction ks with
    | nil => simp [figureBoxes]
    | cons k ks ih =>
      intro b hb
      simp only [figureBoxes, List.mem_append, List.mem_map] at hb
      rcases hb with ⟨a, -, rfl⟩ | hb
      · rfl
      · exact ih b hb
  have after : ∀ (all : List (FigureRow K)) cost ks, (figureBoxes all cost false ks).2 = false := by
    intro all cost ks
    induction ks with
    | nil => rfl
    | cons k ks ih => simpa only [figureBoxes] using ih
  have hu : ∃ ks, uniqueValues ((r :: rows).map (·.kappa)) = r.kappa :: ks := ⟨_, rfl⟩
  obtain ⟨ks, hu⟩ := hu
  constructor
  · show (((figureBoxes (r :: rows) "EUC_2D" true (uniqueValues ((r :: rows).map (·.kappa)))).1).filter (·.legend)).map (·.algorithm) = _
    rw [hu]
    simp only [figureBoxes, List.filter_append, List.map_append]
    have : ((figureBoxes (r :: rows) "EUC_2D" false ks).1.filter (·.legend)) = [] :=
      List.filter_eq_nil_iff.2 fun b hb => by simp [none_ _ _ _ b hb]
    rw [this]
    rfl
  · show ∀ b ∈ (figureBoxes (r :: rows) "MST" (figureBoxes (r :: rows) "EUC_2D" true (uniqueValues ((r :: rows).map (·.kappa)))).2
      (uniqueValues ((r :: rows).map (·.kappa)))).1, b.legend = false
    have : (figureBoxes (r :: rows) "EUC_2D" true (uniqueValues ((r :: rows).map (·.kappa)))).2 = false := by
      rw [hu]
      exact after _ _ ks
    rw [this]
    exact none_ _ _ _

/-! ### Examples -/

/-- A table with the strategy in the index, as in the table of tailing off. -/
def exTailing : Frame := ⟨["num_optimal_solutions", "mean_gap"], ["algorithm", "branching_strategy"],
  [([.text "solve_pctsp", .num 2], [.num 4, .num 0]), ([.text "solve_pctsp", .num 4], [.num 1, .nan])]⟩

example : exTailing.Shaped ∧ prettyFrame false exTailing = ⟨["OPT", "$\\overline{\\text{GAP}}$"], ["Algorithm", "Branching strategy"],
    [([.text "BC", .text "Strong at tree top"], [.num 4, .num 0]), ([.text "BC", .text "Default"], [.num 1, .nan])]⟩ := by
  refine ⟨?_, by decide +kernel⟩
  intro r hr
  revert r
  decide +kernel
/-- The same table with the strategy in a column: four optimal solutions are shown as "Default". -/
example : prettyFrame false ⟨["branching_strategy", "num_optimal_solutions", "mean_gap"], ["algorithm"],
    [([.text "solve_pctsp"], [.num 2, .num 4, .num 0])]⟩ = ⟨["Branching strategy", "OPT", "$\\overline{\\text{GAP}}$"], ["Algorithm"],
    [([.text "BC"], [.text "Strong at tree top", .text "Default", .text "Relative branching"])]⟩ := by decide +kernel
example : ((prettyLevel ⟨["mean_gap", "num_optimal_solutions"], sortedCodes 3 2⟩).bind (·.values)) =
    some ["$\\overline{\\text{GAP}}$", "OPT", "$\\overline{\\text{GAP}}$", "OPT", "$\\overline{\\text{GAP}}$", "OPT"] := by decide +kernel
example : ((prettyLevel ⟨["mean_gap", "num_optimal_solutions"], unstackedCodes 2 2⟩).bind (·.values)) =
    some ["$\\overline{\\text{GAP}}$", "$\\overline{\\text{GAP}}$", "$\\overline{\\text{GAP}}$", "$\\overline{\\text{GAP}}$"] ∧
    prettyName "mean_gap" ≠ prettyName "num_optimal_solutions" := by decide +kernel
example : prettyName "preprocessed_total_cost" = "$c(E(H))" ∧ prettyName "objective" = "objective" := by decide +kernel
example : ccNames [(true, false), (false, false)] = some ["Cost cover disjoint paths", "No cost cover"] ∧ ccNames [(false, true), (true, true)] = none := by
  decide +kernel
/-- An empty heuristics file of londonaq keeps all tables of the other dataset from being written. -/
example : attemptTables (fun t => if t = (true, .heuristics) then .failed else if t = (true, .costCover) then .absent else .written) allTables =
    ([(true, .dataset), (true, .costCover), (true, .heuristics)], true) := by decide +kernel

/-- Gaps of 0, 0.0095 and 0.02, and a row of another algorithm. -/
def exFigure : List (FigureRow Nat) := [⟨5, "EUC_2D", "BFS-EC", .fin 0⟩, ⟨5, "EUC_2D", "BFS-EC", .fin (19 / 2000)⟩, ⟨5, "EUC_2D", "SBL-PEC", .fin (1 / 50)⟩,
  ⟨10, "EUC_2D", "SBL", .fin (1 / 50)⟩, ⟨10, "MST", "SBL-EC", .nan⟩, ⟨10, "MST", "SBL-EC", .fin (1 / 2)⟩]

example : visiblePoints (figureOf exFigure false) = [(5, "BFS-EC", .fin 0), (5, "SBL-PEC", .fin (1 / 50))] ∧
    visiblePoints (figureOf exFigure true) = [(10, "SBL-EC", .fin (1 / 2))] := by decide +kernel
example : ∀ r ∈ exFigure, r.kappa ∈ [5, 10] := by decide +kernel
/-- The point of the sixth value of kappa is missing. -/
example : (visiblePoints (figureOf ([5, 10, 15, 20, 25, 30].map fun k => (⟨k, "MST", "BFS-EC", .fin 1⟩ : FigureRow Nat)) true)).map (·.1) = [5, 10, 15, 20, 25] := by
  decide +kernel
/-- A heuristic solution of objective 20190 with the lower bound 20000 has a gap that neither panel shows. -/
example : gapOf .fin (.fin 20000) (objectiveExt .fin (some 20190)) = .fin (19 / 2000) ∧ ¬ GapVisible (.fin (19 / 2000)) := by
  refine ⟨by decide +kernel, ?_⟩
  rintro ⟨q, hq, h⟩
  cases hq
  norm_num at h

end Pctsp
