import Verif.Model.Branching

/-!
# Properties of the branching strategies (C44)
-/

namespace Pctsp

/-! ## C44 -/

theorem mem_setStrong {rules : List BranchRule} {r : BranchRule} (h : r ∈ setStrongBranching rules) :
    (r.name = "fullstrong" → r.priority = 4000) ∧ (r.name = "relpscost" → r.priority = 3000) ∧
      (r.name ≠ "fullstrong" → r.name ≠ "relpscost" → r.priority < 3000) := by
  simp only [setStrongBranching, List.mem_map] at h
  obtain ⟨r0, -, rfl⟩ := h
  by_cases h1 : r0.name = "fullstrong"
  · simp [h1, BranchRule.setPriority]
  · by_cases h2 : r0.name = "relpscost"
    · simp [h2, BranchRule.setPriority]
    · by_cases h3 : r0.name = "mostinf"
      · simp [h3, BranchRule.setPriority]
      · by_cases h4 : r0.priority ≥ 3000
        · simp [h1, h2, h3, h4, BranchRule.setPriority]
        · simp [h1, h2, h3, h4]; omega

/-- C44: after the strong strategy `fullstrong` is strictly first, `relpscost` strictly second and all others come after them,
whatever the priorities were; the rules and their depths are the same. -/
theorem C44_strong (rules : List BranchRule) :
    (setStrongBranching rules).map (fun r => (r.name, r.maxdepth)) = rules.map (fun r => (r.name, r.maxdepth)) ∧
    ∀ f ∈ setStrongBranching rules, ∀ p ∈ setStrongBranching rules, ∀ o ∈ setStrongBranching rules,
      f.name = "fullstrong" → p.name = "relpscost" → o.name ≠ "fullstrong" → o.name ≠ "relpscost" →
        p.priority < f.priority ∧ o.priority < p.priority := by
  constructor
  · simp only [setStrongBranching, List.map_map]
    apply List.map_congr_left
    intro r _
    simp only [Function.comp_apply]
    repeat' split
    all_goals rfl
  · intro f hf p hp o ho h1 h2 h3 h4
    have a := (mem_setStrong hf).1 h1
    have b := (mem_setStrong hp).2.1 h2
    have c := (mem_setStrong ho).2.2 h3 h4
    omega

/-- C44: the strong strategy leaves every other rule below 3000 alone, except `mostinf`. -/
theorem C44_strong_others (rules : List BranchRule) (r : BranchRule) (hr : r ∈ rules) (h1 : r.name ≠ "fullstrong")
    (h2 : r.name ≠ "relpscost") (h3 : r.name ≠ "mostinf") (h4 : r.priority < 3000) : r ∈ setStrongBranching rules := by
  simp only [setStrongBranching, List.mem_map]
  exact ⟨r, hr, by simp [h1, h2, h3]; omega⟩

/-- C44: after the reliability strategy `relpscost` is strictly first. -/
theorem C44_relpscost (rules : List BranchRule) :
    (setRelpscostBranching rules).map (fun r => (r.name, r.maxdepth)) = rules.map (fun r => (r.name, r.maxdepth)) ∧
    ∀ p ∈ setRelpscostBranching rules, ∀ o ∈ setRelpscostBranching rules, p.name = "relpscost" → o.name ≠ "relpscost" →
      o.priority < p.priority := by
  constructor
  · simp only [setRelpscostBranching, List.map_map]
    apply List.map_congr_left
    intro r _
    simp only [Function.comp_apply]
    split <;> rfl
  · intro p hp o ho h1 h2
    simp only [setRelpscostBranching, List.mem_map] at hp ho
    obtain ⟨p0, -, rfl⟩ := hp
    obtain ⟨o0, -, rfl⟩ := ho
    split at h1
    · split at h2
      · rename_i h; simp [BranchRule.setPriority, h] at h2
      · simp [BranchRule.setPriority, *]
    · rename_i h; simp [BranchRule.setPriority] at h1; exact absurd h1 h

/-- C44: all other strategies change nothing. -/
theorem C44_others (rules : List BranchRule) (strategy : Nat) (d : Int) (h : 3 ≤ strategy) :
    setBranchingStrategy rules strategy d = .ok rules := by
  match strategy, h with
  | n + 3, _ => rfl

theorem setMaxdepthOf_some {name : String} {d : Int} : ∀ {rules rules' : List BranchRule},
    setMaxdepthOf name d rules = some rules' → ∃ A r B, rules = A ++ r :: B ∧ (∀ x ∈ A, x.name ≠ name) ∧ r.name = name ∧
      rules' = A ++ { r with maxdepth := d } :: B
  | [], _, h => by simp [setMaxdepthOf] at h
  | r :: rs, rules', h => by
    unfold setMaxdepthOf at h
    split at h
    · rename_i hn
      simp only [Option.some.injEq] at h
      exact ⟨[], r, rs, rfl, by simp, hn, h.symm⟩
    · rename_i hn
      simp only [Option.map_eq_some_iff] at h
      obtain ⟨rs', h1, rfl⟩ := h
      obtain ⟨A, x, B, rfl, h2, h3, rfl⟩ := setMaxdepthOf_some h1
      exact ⟨r :: A, x, B, rfl, by simpa using ⟨hn, h2⟩, h3, rfl⟩

theorem setMaxdepthOf_split {name : String} {d : Int} : ∀ (A : List BranchRule) (r : BranchRule) (B : List BranchRule),
    (∀ x ∈ A, x.name ≠ name) → r.name = name → setMaxdepthOf name d (A ++ r :: B) = some (A ++ { r with maxdepth := d } :: B)
  | [], r, B, _, h => by simp [setMaxdepthOf, h]
  | a :: A, r, B, h1, h2 => by
    have := setMaxdepthOf_split (d := d) A r B (fun x hx => h1 x (by simp [hx])) h2
    simp [setMaxdepthOf, h1 a (by simp), this]

theorem setMaxdepthOf_none {name : String} {d : Int} : ∀ {rules : List BranchRule},
    setMaxdepthOf name d rules = none ↔ ∀ r ∈ rules, r.name ≠ name
  | [] => by simp [setMaxdepthOf]
  | r :: rs => by
    unfold setMaxdepthOf
    split
    · rename_i h; simp [h]
    · rename_i h; simp [h, setMaxdepthOf_none (rules := rs)]

theorem setStrong_idem (rules : List BranchRule) : setStrongBranching (setStrongBranching rules) = setStrongBranching rules := by
  simp only [setStrongBranching, List.map_map]
  apply List.map_congr_left
  intro r _
  simp only [Function.comp_apply]
  by_cases h1 : r.name = "fullstrong"
  · simp [h1, BranchRule.setPriority]
  · by_cases h2 : r.name = "relpscost"
    · simp [h2, BranchRule.setPriority]
    · by_cases h3 : r.name = "mostinf"
      · simp [h3, BranchRule.setPriority]
      · by_cases h4 : r.priority ≥ 3000
        · simp [h1, h2, h3, h4, BranchRule.setPriority]
        · simp [h1, h2, h3, h4]

/-- C44: strong branching at the top of the tree: the same priorities as the strong strategy, and only the depth of `fullstrong` is
changed; undefined iff there is no rule of that name. -/
theorem C44_tree_top (rules : List BranchRule) (d : Int) :
    ((setBranchingStrategy rules 2 d).isUb = true ↔ ∀ r ∈ rules, r.name ≠ "fullstrong") ∧
    ∀ rules', setBranchingStrategy rules 2 d = .ok rules' →
      rules'.map (fun r => (r.name, r.priority)) = (setStrongBranching rules).map (fun r => (r.name, r.priority)) ∧
      ∃ A r B, setStrongBranching rules = A ++ r :: B ∧ r.name = "fullstrong" ∧ rules' = A ++ { r with maxdepth := d } :: B := by
  simp only [setBranchingStrategy, setStrongAtTreeTop]
  constructor
  · have e : setMaxdepthOf "fullstrong" d (setStrongBranching rules) = none ↔ ∀ r ∈ rules, r.name ≠ "fullstrong" := by
      rw [setMaxdepthOf_none]
      have hn : (setStrongBranching rules).map (·.name) = rules.map (·.name) := by
        have := congrArg (List.map Prod.fst) (C44_strong rules).1
        simpa [List.map_map, Function.comp_def] using this
      have : ∀ l : List BranchRule, (∀ r ∈ l, r.name ≠ "fullstrong") ↔ "fullstrong" ∉ l.map (·.name) := by
        intro l; simp
      rw [this, hn, ← this]
    rw [← e]
    cases setMaxdepthOf "fullstrong" d (setStrongBranching rules) <;> simp [Res.isUb]
  · intro rules' h
    cases hm : setMaxdepthOf "fullstrong" d (setStrongBranching rules) with
    | none => simp [hm] at h
    | some l =>
      simp only [hm, Res.ok.injEq] at h
      subst h
      obtain ⟨A, r, B, h1, -, h2, rfl⟩ := setMaxdepthOf_some hm
      exact ⟨by rw [h1]; simp, A, r, B, h1, h2, rfl⟩

/-- C44: applying a strategy twice equals applying it once. -/
theorem C44_idempotent (rules rules' : List BranchRule) (strategy : Nat) (d : Int)
    (h : setBranchingStrategy rules strategy d = .ok rules') : setBranchingStrategy rules' strategy d = .ok rules' := by
  match strategy with
  | 0 =>
    simp only [setBranchingStrategy, Res.ok.injEq] at h ⊢
    subst h
    simp only [setRelpscostBranching, List.map_map]
    apply List.map_congr_left
    intro r _
    simp only [Function.comp_apply]
    by_cases h1 : r.name = "relpscost" <;> simp [h1, BranchRule.setPriority]
  | 1 =>
    simp only [setBranchingStrategy, Res.ok.injEq] at h ⊢
    subst h
    exact setStrong_idem rules
  | 2 =>
    simp only [setBranchingStrategy, setStrongAtTreeTop] at h ⊢
    cases hm : setMaxdepthOf "fullstrong" d (setStrongBranching rules) with
    | none => simp [hm] at h
    | some l =>
      simp only [hm, Res.ok.injEq] at h
      subst h
      obtain ⟨A, r, B, h1, h2, h3, rfl⟩ := setMaxdepthOf_some hm
      have e : setStrongBranching (A ++ { r with maxdepth := d } :: B) = A ++ { r with maxdepth := d } :: B := by
        have i := setStrong_idem rules
        rw [h1] at i
        simp only [setStrongBranching, List.map_append, List.map_cons] at i ⊢
        have hl := List.append_inj i (by simp)
        rw [hl.1]
        simp only [List.cons.injEq] at hl
        rw [hl.2.2]
        congr 2
        have := hl.2.1
        simp only [h3, if_true, BranchRule.setPriority] at this ⊢
        rw [← this]
      rw [e, setMaxdepthOf_split A { r with maxdepth := d } B h2 h3]
  | n + 3 => rfl

/-- A solver with a rule of its own at priority 10000. -/
def exRules : List BranchRule :=
  [⟨"mine", 10000, -1⟩, ⟨"relpscost", 10000, -1⟩, ⟨"pscost", 2000, -1⟩, ⟨"mostinf", 100, -1⟩, ⟨"fullstrong", 0, -1⟩]

example : setBranchingStrategy exRules 2 5 =
    .ok [⟨"mine", 2500, -1⟩, ⟨"relpscost", 3000, -1⟩, ⟨"pscost", 2000, -1⟩, ⟨"mostinf", 1000, -1⟩, ⟨"fullstrong", 4000, 5⟩] := by
  decide

/-- C44: without a depth, strong branching at the top of the tree has depth -1, which SCIP reads as no limit; so it is the same as strong
branching everywhere, up to the limits of `fullstrong`, and the other strategies ignore the depth. -/
theorem C44_default_depth (rules : List BranchRule) :
    (∀ rules', setBranchingStrategyDefault rules 2 = .ok rules' →
      ∃ A r B, setStrongBranching rules = A ++ r :: B ∧ r.name = "fullstrong" ∧ rules' = A ++ { r with maxdepth := -1 } :: B) ∧
    (∀ (strategy : Nat) (d : Int), strategy ≠ 2 → setBranchingStrategyDefault rules strategy = setBranchingStrategy rules strategy d) ∧
    (∀ rules', (∀ r ∈ rules, r.name = "fullstrong" → r.maxdepth = -1) → setBranchingStrategyDefault rules 2 = .ok rules' →
      setBranchingStrategyDefault rules 1 = .ok rules') := by
  refine ⟨fun rules' h => ?_, fun strategy d h => ?_, fun rules' hm h => ?_⟩
  · exact ((C44_tree_top rules (-1)).2 rules' h).2
  · match strategy, h with
    | 0, _ => rfl
    | 1, _ => rfl
    | n + 3, _ => rfl
  · obtain ⟨-, A, r, B, h1, h2, h3⟩ := (C44_tree_top rules (-1)).2 rules' h
    have hd : r.maxdepth = -1 := by
      have hr : r ∈ setStrongBranching rules := by rw [h1]; simp
      have hmap := (C44_strong rules).1
      have : (r.name, r.maxdepth) ∈ rules.map (fun r => (r.name, r.maxdepth)) := by
        rw [← hmap]; exact List.mem_map.2 ⟨r, hr, rfl⟩
      obtain ⟨r0, hr0, e⟩ := List.mem_map.1 this
      injection e with e1 e2
      rw [← e2]; exact hm r0 hr0 (by rw [e1]; exact h2)
    have e : ({ r with maxdepth := -1 } : BranchRule) = r := by rw [← hd]
    simp only [setBranchingStrategyDefault, setBranchingStrategy, Res.ok.injEq]
    rw [h1, h3, e]

example : setBranchingStrategyDefault [⟨"relpscost", 10000, -1⟩, ⟨"fullstrong", 0, 10⟩] 2 =
    .ok [⟨"relpscost", 3000, -1⟩, ⟨"fullstrong", 4000, -1⟩] := by decide

example := C44_strong_others exRules ⟨"pscost", 2000, -1⟩ (by decide) (by decide) (by decide) (by decide) (by decide)
example := C44_others exRules 7 5 (by decide)

end Pctsp
