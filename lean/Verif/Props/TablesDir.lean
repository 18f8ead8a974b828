import Verif.Lemmas.TablesDir
import Verif.Props.CsvHome

/-!
# C160: which files the commands for tables write
-/

namespace Pctsp

variable {T : Type}

/-- **C160.** If the directory exists, `tables all` writes the table of a dataset, of the covers or of tailing off iff its text can be computed and no command before it
raises anything but a `FileNotFoundError`.  Any other file, and the files of the heuristics, stay as they are.  The command succeeds iff no command raises anything else. -/
theorem C160_exists (fault : TableFault) (source : TableName → Except TableFault T) (p : Bool) (f : TableName → Option T) :
    ∃ f', (tablesAllCmd fault source ⟨p, some f⟩).1 = ⟨p, some f'⟩ ∧
      (∀ pre t post, allTables = pre ++ t :: post → t.2 ≠ .heuristics → ∀ text, source t = .ok text → (∀ u ∈ pre, source u ≠ .error .other) → f' t = some text) ∧
      (∀ pre t post, allTables = pre ++ t :: post → (t.2 = .heuristics ∨ (∃ e, source t = .error e) ∨ ∃ u ∈ pre, source u = .error .other) → f' t = f t) ∧
      ((tablesAllCmd fault source ⟨p, some f⟩).2 = true ↔ ∀ t, source t ≠ .error .other) := by
  obtain ⟨f', h1, -, h3, h4, h5⟩ := tableSteps_exists fault source allTables (by decide) p f
  refine ⟨f', h1, h3, h4, h5.trans ⟨fun h t => h t ?_, fun h t _ => h t⟩⟩
  obtain ⟨b, k⟩ := t
  cases b <;> cases k <;> decide

/-- **C160.** The order within a dataset: the table of the covers comes before that of the heuristics, this before that of tailing off, and all tables of `londonaq` before those of the other
dataset.  So an exception of the heuristics, whose table is not written anyway, keeps the tables of tailing off from being written. -/
theorem C160_blocks (fault : TableFault) (source : TableName → Except TableFault T) (p : Bool) (f : TableName → Option T) :
    ∃ f', (tablesAllCmd fault source ⟨p, some f⟩).1 = ⟨p, some f'⟩ ∧
      (∀ b, source (b, .heuristics) = .error .other → f' (b, .tailingOff) = f (b, .tailingOff)) ∧
      (∀ b, source (b, .costCover) = .error .other → f' (b, .tailingOff) = f (b, .tailingOff)) ∧
      (∀ k k', source (true, k) = .error .other → f' (false, k') = f (false, k')) ∧
      ((∀ b, source (b, .tailingOff) = .error .other) → (∀ k ≠ .tailingOff, ∃ text, source (true, k) = .ok text) →
        ∀ k ≠ .tailingOff, k ≠ .heuristics → ∃ text, source (true, k) = .ok text ∧ f' (true, k) = some text) := by
  obtain ⟨f', h1, h2, h3, -⟩ := C160_exists fault source p f
  refine ⟨f', h1, ?_, ?_, ?_, ?_⟩
  · intro b hb
    cases b
    · exact h3 [(true, .dataset), (true, .costCover), (true, .heuristics), (true, .tailingOff), (false, .dataset), (false, .costCover), (false, .heuristics)] _ [] rfl
        (.inr (.inr ⟨(false, .heuristics), by simp, hb⟩))
    · exact h3 [(true, .dataset), (true, .costCover), (true, .heuristics)] _ _ rfl (.inr (.inr ⟨(true, .heuristics), by simp, hb⟩))
  · intro b hb
    cases b
    · exact h3 [(true, .dataset), (true, .costCover), (true, .heuristics), (true, .tailingOff), (false, .dataset), (false, .costCover), (false, .heuristics)] _ [] rfl
        (.inr (.inr ⟨(false, .costCover), by simp, hb⟩))
    · exact h3 [(true, .dataset), (true, .costCover), (true, .heuristics)] _ _ rfl (.inr (.inr ⟨(true, .costCover), by simp, hb⟩))
  · intro k k' hk
    have hm : (false, k') ∈ allTables.drop 4 := by cases k' <;> decide
    obtain ⟨pre, post, hp⟩ := List.append_of_mem hm
    refine h3 (allTables.take 4 ++ pre) (false, k') post ?_ (.inr (.inr ⟨(true, k), ?_, hk⟩))
    · rw [List.append_assoc, ← hp, List.take_append_drop]
    · exact List.mem_append_left _ (by cases k <;> decide)
  · intro _ hs k hk hk'
    obtain ⟨text, ht⟩ := hs k hk
    refine ⟨text, ht, ?_⟩
    have ne : ∀ k ≠ TableKind.tailingOff, source (true, k) ≠ .error .other := by
      intro k hk
      obtain ⟨t, h⟩ := hs k hk
      rw [h]; simp
    cases k with
    | dataset => exact h2 [] _ _ rfl hk' text ht (by simp)
    | costCover => exact h2 [(true, .dataset)] _ _ rfl hk' text ht (by simpa using ne .dataset (by simp))
    | heuristics => exact absurd rfl hk'
    | tailingOff => exact absurd rfl hk

/-- **C160.** Repeating the command with the same data changes nothing. -/
theorem C160_repeat (fault : TableFault) (source : TableName → Except TableFault T) (p : Bool) (f : TableName → Option T) :
    tablesAllCmd fault source (tablesAllCmd fault source ⟨p, some f⟩).1 = tablesAllCmd fault source ⟨p, some f⟩ := by
  obtain ⟨f', h1, h2, h3, h4⟩ := C160_exists fault source p f
  rw [h1]
  obtain ⟨f'', k1, k2, k3, k4⟩ := C160_exists fault source p f'
  have hff : f'' = f' := by
    funext t
    have hm : t ∈ allTables := by obtain ⟨b, k⟩ := t; cases b <;> cases k <;> decide
    obtain ⟨pre, post, hp⟩ := List.append_of_mem hm
    by_cases hk : t.2 = .heuristics
    · exact k3 pre t post hp (.inl hk)
    · by_cases hu : ∃ u ∈ pre, source u = .error .other
      · exact k3 pre t post hp (.inr (.inr hu))
      · cases hs : source t with
        | error e => exact k3 pre t post hp (.inr (.inl ⟨e, hs⟩))
        | ok text =>
          have hu' : ∀ u ∈ pre, source u ≠ .error .other := fun u hu1 hu2 => hu ⟨u, hu1, hu2⟩
          rw [k2 pre t post hp hk text hs hu', h2 pre t post hp hk text hs hu']
  refine Prod.ext ?_ ?_
  · rw [k1, h1, hff]
  · exact Bool.eq_iff_iff.2 (k4.trans h4.symm)

/-- **C160.** No run of any of the commands, alone or together and however often, writes the table of the heuristics. -/
theorem C160_heuristics (fault : TableFault) (b : Bool) :
    (∀ (source : TableName → Except TableFault T) t d, (tableCmd fault source t d).1.files.bind (· (b, .heuristics)) = d.files.bind (· (b, .heuristics))) ∧
    ∀ (sources : List (TableName → Except TableFault T)) d, (tablesRuns fault sources d).files.bind (· (b, .heuristics)) = d.files.bind (· (b, .heuristics)) := by
  have one : ∀ (source : TableName → Except TableFault T) t d, (tableCmd fault source t d).1.files.bind (· (b, .heuristics)) = d.files.bind (· (b, .heuristics)) := by
    rintro source ⟨b', k⟩ ⟨p, f⟩
    cases f with
    | some f =>
      rw [tableCmd_exists]
      cases source (b', k) with
      | error e => rfl
      | ok text =>
        simp only
        split
        · rfl
        · rename_i h
          simp only [Option.bind_some]
          exact if_neg (by rintro ⟨⟩; exact h rfl)
    | none =>
      cases h : source (b', k) <;> cases k <;> cases p <;> simp [tableCmd, h, TexDir.mkdir, TexDir.write]
  refine ⟨one, ?_⟩
  have steps : ∀ (source : TableName → Except TableFault T) ts d, (tableSteps fault source ts d).1.files.bind (· (b, .heuristics)) = d.files.bind (· (b, .heuristics)) := by
    intro source ts
    induction ts with
    | nil => intro d; rfl
    | cons t ts ih =>
      intro d
      have ht := one source t d
      rw [tableSteps]
      cases hx : tableCmd fault source t d with
      | mk d' e =>
        rw [hx] at ht
        match e with
        | some .other => exact ht
        | some .notFound => exact (ih d').trans ht
        | none => exact (ih d').trans ht
  intro sources
  induction sources with
  | nil => intro d; rfl
  | cons s sources ih =>
    intro d
    simp only [tablesRuns, List.foldl_cons] at ih ⊢
    rw [ih, tablesAllCmd, steps]

/-- The data without those of the table of the first dataset. -/
def withoutFirst (source : TableName → Except TableFault T) : TableName → Except TableFault T :=
  fun t => if t = (true, .dataset) then .error .notFound else source t

/-- **C160.** The directory does not exist and can be made.  If the table of the first dataset can be computed and `pandas` raises an `OSError`, the command ends there: it makes
no directory, and repeating it, with whatever data, does not help.  Otherwise the directory is made by the second command, and the command does what it does with an empty directory
and without the data of the first table: this table is not written, though its data may be there. -/
theorem C160_new (source : TableName → Except TableFault T) :
    ((∃ text, source (true, .dataset) = .ok text) → tablesAllCmd .other source ⟨true, none⟩ = (⟨true, none⟩, false)) ∧
    (∀ sources : List (TableName → Except TableFault T), (∀ s ∈ sources, ∃ text, s (true, .dataset) = .ok text) → tablesRuns .other sources ⟨true, none⟩ = ⟨true, none⟩) ∧
    (∀ fault, source (true, .dataset) = .error .other → tablesAllCmd fault source ⟨true, none⟩ = (⟨true, none⟩, false)) ∧
    ∀ fault, (source (true, .dataset) = .error .notFound ∨ (fault = .notFound ∧ ∃ text, source (true, .dataset) = .ok text)) →
      tablesAllCmd fault source ⟨true, none⟩ = tablesAllCmd fault (withoutFirst source) ⟨true, some fun _ => none⟩ := by
  have first : ∀ s : TableName → Except TableFault T, (∃ text, s (true, .dataset) = .ok text) → tablesAllCmd .other s ⟨true, none⟩ = (⟨true, none⟩, false) := by
    rintro s ⟨text, h⟩
    rw [tablesAllCmd, show allTables = (true, .dataset) :: allTables.tail from rfl, tableSteps]
    simp [tableCmd, h, TexDir.write]
  refine ⟨first source, ?_, ?_, ?_⟩
  · intro sources
    induction sources with
    | nil => intro _; rfl
    | cons s sources ih =>
      intro h
      rw [tablesRuns, List.foldl_cons, first s (h s (by simp))]
      exact ih fun s hs => h s (by simp [hs])
  · intro fault h
    rw [tablesAllCmd, show allTables = (true, .dataset) :: allTables.tail from rfl, tableSteps]
    simp [tableCmd, h]
  · intro fault h
    have cong : ∀ (ts : List TableName), (true, .dataset) ∉ ts → ∀ d, tableSteps fault source ts d = tableSteps fault (withoutFirst source) ts d := by
      intro ts
      induction ts with
      | nil => intro _ d; rfl
      | cons t ts ih =>
        intro hts d
        simp only [List.mem_cons, not_or] at hts
        have hs : withoutFirst source t = source t := if_neg (fun e => hts.1 e.symm)
        have hc : tableCmd fault (withoutFirst source) t d = tableCmd fault source t d := by simp only [tableCmd, hs]
        rw [tableSteps, tableSteps, hc]
        cases tableCmd fault source t d with
        | mk d' e =>
          match e with
          | some .other => rfl
          | some .notFound => exact ih hts.2 d'
          | none => exact ih hts.2 d'
    have hl : tablesAllCmd fault source ⟨true, none⟩ = tableSteps fault source allTables.tail ⟨true, none⟩ := by
      rw [tablesAllCmd, show allTables = (true, .dataset) :: allTables.tail from rfl, tableSteps]
      rcases h with h | ⟨rfl, text, h⟩
      · simp [tableCmd, h]
      · simp [tableCmd, h, TexDir.write]
    have hr : tablesAllCmd fault (withoutFirst source) ⟨true, some fun _ => none⟩ = tableSteps fault (withoutFirst source) allTables.tail ⟨true, some fun _ => none⟩ := by
      rw [tablesAllCmd, show allTables = (true, .dataset) :: allTables.tail from rfl, tableSteps]
      have : withoutFirst source (true, .dataset) = .error .notFound := if_pos rfl
      simp [tableCmd, this]
    rw [hl, hr, ← cong _ (by decide)]
    rw [show allTables.tail = (true, .costCover) :: allTables.tail.tail from rfl, tableSteps, tableSteps]
    have hc : tableCmd fault source (true, .costCover) ⟨true, none⟩ = tableCmd fault source (true, .costCover) ⟨true, some fun _ => none⟩ := by
      simp [tableCmd, TexDir.mkdir]
    rw [hc]

/-- **C160.** With a `FileNotFoundError`, a first run in a new directory misses the table of the first dataset, and a second one with the same data writes it: two runs leave what
one leaves if the directory is made beforehand, provided no command raises anything else. -/
theorem C160_twice (source : TableName → Except TableFault T) (text : T) (h : source (true, .dataset) = .ok text) (hs : ∀ t, source t ≠ .error .other) :
    (tablesAllCmd .notFound source ⟨true, none⟩).1.files.bind (· (true, .dataset)) = none ∧
    (tablesAllCmd .notFound source ⟨true, none⟩).2 = true ∧
    tablesRuns .notFound [source, source] ⟨true, none⟩ = (tablesAllCmd .notFound source ⟨true, some fun _ => none⟩).1 := by
  have hw : ∀ t, withoutFirst source t ≠ .error .other := by
    intro t
    unfold withoutFirst
    split
    · simp
    · exact hs t
  rw [tablesRuns, List.foldl_cons, List.foldl_cons, List.foldl_nil, (C160_new source).2.2.2 .notFound (.inr ⟨rfl, text, h⟩)]
  obtain ⟨f', h1, h2, h3, h4⟩ := C160_exists .notFound (withoutFirst source) true fun _ => none
  obtain ⟨f'', k1, k2, k3, k4⟩ := C160_exists .notFound source true f'
  obtain ⟨g, g1, g2, g3, g4⟩ := C160_exists .notFound source true fun _ => none
  refine ⟨?_, h4.2 hw, ?_⟩
  · rw [h1]
    exact h3 [] (true, .dataset) allTables.tail rfl (.inr (.inl ⟨.notFound, if_pos rfl⟩))
  · rw [h1, k1, g1]
    have : f'' = g := by
      funext t
      have hm : t ∈ allTables := by obtain ⟨b, k⟩ := t; cases b <;> cases k <;> decide
      obtain ⟨pre, post, hp⟩ := List.append_of_mem hm
      by_cases hk : t.2 = .heuristics
      · rw [k3 pre t post hp (.inl hk), g3 pre t post hp (.inl hk), h3 pre t post hp (.inl hk)]
      · cases hx : source t with
        | ok text => rw [k2 pre t post hp hk text hx fun u _ => hs u, g2 pre t post hp hk text hx fun u _ => hs u]
        | error e =>
          have hne : withoutFirst source t = .error e := by
            unfold withoutFirst
            split
            · rename_i ht
              subst ht
              rw [h] at hx; cases hx
            · exact hx
          rw [k3 pre t post hp (.inr (.inl ⟨e, hx⟩)), g3 pre t post hp (.inr (.inl ⟨e, hx⟩)), h3 pre t post hp (.inr (.inl ⟨e, hne⟩))]
    rw [this]

/-- **C160.** The parent of the directory does not exist: nothing is ever written.  With a `FileNotFoundError` the command still succeeds, unless the data of a table of a dataset or of
the heuristics raise something else. -/
theorem C160_no_parent (fault : TableFault) (source : TableName → Except TableFault T) :
    (tablesAllCmd fault source ⟨false, none⟩).1 = ⟨false, none⟩ ∧
    ((tablesAllCmd fault source ⟨false, none⟩).2 = true ↔
      ∀ b, source (b, .dataset) ≠ .error .other ∧ source (b, .heuristics) ≠ .error .other ∧ (fault = .other → ∀ text, source (b, .dataset) ≠ .ok text)) := by
  have step : ∀ t : TableName, (tableCmd fault source t ⟨false, none⟩).1 = ⟨false, none⟩ ∧
      ((tableCmd fault source t ⟨false, none⟩).2 = some .other ↔
        (t.2 = .dataset ∧ (source t = .error .other ∨ (fault = .other ∧ ∃ text, source t = .ok text))) ∨ (t.2 = .heuristics ∧ source t = .error .other)) := by
    rintro ⟨b, k⟩
    cases h : source (b, k) <;> cases k <;> simp [tableCmd, h, TexDir.mkdir, TexDir.write]
  have steps : ∀ ts : List TableName, (tableSteps fault source ts ⟨false, none⟩).1 = ⟨false, none⟩ ∧
      ((tableSteps fault source ts ⟨false, none⟩).2 = true ↔ ∀ t ∈ ts, (tableCmd fault source t ⟨false, none⟩).2 ≠ some .other) := by
    intro ts
    induction ts with
    | nil => simp [tableSteps]
    | cons t ts ih =>
      have h1 := (step t).1
      rw [tableSteps]
      cases hx : tableCmd fault source t ⟨false, none⟩ with
      | mk d' e =>
        rw [hx] at h1
        simp only at h1
        subst h1
        match e with
        | some .other => simp [hx]
        | some .notFound => simp only [List.mem_cons, forall_eq_or_imp, hx]; simpa using ih
        | none => simp only [List.mem_cons, forall_eq_or_imp, hx]; simpa using ih
  refine ⟨(steps allTables).1, (steps allTables).2.trans ?_⟩
  constructor
  · intro h b
    have hd := (step (b, .dataset)).2.not.1 (h _ (by cases b <;> decide))
    have hh := (step (b, .heuristics)).2.not.1 (h _ (by cases b <;> decide))
    simp only [reduceCtorEq, false_and, or_false, true_and, false_or, not_or, not_and, not_exists] at hd hh
    exact ⟨hd.1, hh, hd.2⟩
  · rintro h ⟨b, k⟩ - he
    obtain ⟨h1, h2, h3⟩ := h b
    rcases (step (b, k)).2.1 he with ⟨hk, hx | ⟨hf, text, hx⟩⟩ | ⟨hk, hx⟩
    · simp only at hk; subst hk; exact h1 hx
    · simp only at hk; subst hk; exact h3 hf text hx
    · simp only at hk; subst hk; exact h2 hx

/-- **C160.** If `csv heuristics` has been the last command to write the CSV file of the covers of the first dataset, `tables all` fails and changes at most the table of the
statistics of that dataset. -/
theorem C160_csv {U V P : Type} [DecidableEq U] (L : CsvLab U V P) (dataset : Bool → Except TableFault T)
    (render : TableName → List (SummaryRow U V P) → List (BranchCutRow U V P) → Except TableFault T) (h : CsvHome U V P) (hok : (csvCmd false h).2 = .ok ())
    (hL : L (.londonaq, .costCover) = (csvCmd false h).1) (fault : TableFault) (p : Bool) (f : TableName → Option T) :
    (tablesAllCmd fault (csvSource L dataset render) ⟨p, some f⟩).2 = false ∧
    ∃ f', (tablesAllCmd fault (csvSource L dataset render) ⟨p, some f⟩).1 = ⟨p, some f'⟩ ∧ ∀ t ≠ (true, .dataset), f' t = f t := by
  have hs : csvSource L dataset render (true, .costCover) = .error .other := by
    simp [csvSource, hL, ((C159_overwrite h).1 hok).1, CmdError.fault]
  obtain ⟨f', h1, h2, h3, h4⟩ := C160_exists fault (csvSource L dataset render) p f
  refine ⟨?_, f', h1, ?_⟩
  · rw [← Bool.not_eq_true, h4]
    exact fun h => h _ hs
  · intro t ht
    have hm : t ∈ allTables := by obtain ⟨b, k⟩ := t; cases b <;> cases k <;> decide
    by_cases hc : t = (true, .costCover)
    · subst hc
      exact h3 [(true, .dataset)] _ allTables.tail.tail rfl (.inr (.inl ⟨_, hs⟩))
    · have hm' : t ∈ allTables.tail.tail := by
        obtain ⟨b, k⟩ := t
        cases b <;> cases k <;> first | decide | exact absurd rfl ht | exact absurd rfl hc
      obtain ⟨pre, post, hp⟩ := List.append_of_mem hm'
      exact h3 ((true, .dataset) :: (true, .costCover) :: pre) t post (by rw [List.cons_append, List.cons_append, ← hp]; rfl)
        (.inr (.inr ⟨(true, .costCover), by simp, hs⟩))

/-- Data for all tables but those of tailing off, the last of which cannot be computed. -/
def exSource : TableName → Except TableFault String
  | (b, .tailingOff) => .error (if b then .notFound else .other)
  | (b, .dataset) => .ok (if b then "London" else "TSPLIB")
  | _ => .ok "table"

/-- The files there are. -/
def TexDir.names (d : TexDir String) : List TableName := allTables.filter fun t => (d.files.bind (· t)).isSome

example : (tablesAllCmd .other exSource ⟨true, none⟩) = (⟨true, none⟩, false) ∧
    (tablesAllCmd .notFound exSource ⟨true, none⟩).1.names = [(true, .costCover), (false, .dataset), (false, .costCover)] ∧
    (tablesAllCmd .notFound exSource ⟨true, none⟩).2 = false ∧
    (tablesRuns .notFound [exSource, exSource] ⟨true, none⟩).names = [(true, .dataset), (true, .costCover), (false, .dataset), (false, .costCover)] ∧
    (tablesAllCmd .notFound (fun t => if t = (false, .tailingOff) then .ok "t" else exSource t) ⟨false, none⟩).2 = true :=
  ⟨(C160_new exSource).1 ⟨_, rfl⟩, by decide, by decide, by decide, by decide⟩

example : (csvCmd false exCsv).2 = .ok () ∧ (∀ t, (fun t : TableName => if t = (false, .tailingOff) then .ok "t" else exSource t) t ≠ .error .other) :=
  ⟨by rfl, by rintro ⟨b, k⟩; cases b <;> cases k <;> simp [exSource]⟩

end Pctsp
