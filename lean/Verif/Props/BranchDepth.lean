import Verif.Model.BranchDepth
import Verif.Props.Branching

/-!
# C162: which branching rule decides at which depth
-/

namespace Pctsp

/-- A rule decides if it may and does run and every rule with at least its priority and another name may not or does not. -/
theorem decidingRule_eq {runs : String → Bool} {depth : Nat} {name : String} : ∀ {order : List BranchRule}, (order.Pairwise fun a b => b.priority ≤ a.priority) →
    ∀ r ∈ order, r.name = name → r.allowed depth = true → runs name = true →
      (∀ r' ∈ order, r'.name ≠ name → r.priority ≤ r'.priority → (r'.allowed depth && runs r'.name) = false) → decidingRule runs depth order = some name
  | [], _, r, hr, _, _, _, _ => by simp at hr
  | a :: order, ho, r, hr, hn, ha, hrun, h => by
    simp only [decidingRule, List.find?_cons]
    by_cases hb : (a.allowed depth && runs a.name) = true
    · rw [hb]
      by_cases hna : a.name = name
      · simp [hna]
      · have hle : r.priority ≤ a.priority := by
          rcases List.mem_cons.1 hr with rfl | hr'
          · exact Int.le_refl _
          · exact (List.pairwise_cons.1 ho).1 r hr'
        have := h a (by simp) hna hle
        rw [this] at hb
        cases hb
    · have hb' : (a.allowed depth && runs a.name) = false := by simpa using hb
      rw [hb']
      have hra : r ∈ order := by
        rcases List.mem_cons.1 hr with rfl | hr'
        · rw [ha, hn, hrun] at hb'
          cases hb'
        · exact hr'
      exact decidingRule_eq (List.pairwise_cons.1 ho).2 r hra hn ha hrun fun r' hr' => h r' (List.mem_cons_of_mem _ hr')

theorem strong_decides {rules' order : List BranchRule} (hp : ∀ r ∈ rules', (r.name = "fullstrong" → r.priority = 4000) ∧ (r.name = "relpscost" → r.priority = 3000) ∧
      (r.name ≠ "fullstrong" → r.name ≠ "relpscost" → r.priority < 3000)) (ho : IsTryOrder rules' order) (runs : String → Bool) (depth : Nat) :
    (∀ f ∈ rules', f.name = "fullstrong" → f.allowed depth = true → runs "fullstrong" = true → decidingRule runs depth order = some "fullstrong") ∧
    ∀ p ∈ rules', p.name = "relpscost" → p.allowed depth = true → runs "relpscost" = true →
      (∀ f ∈ rules', f.name = "fullstrong" → (f.allowed depth && runs "fullstrong") = false) → decidingRule runs depth order = some "relpscost" := by
  constructor
  · intro f hf hn ha hr
    refine decidingRule_eq ho.2 f (ho.1.mem_iff.2 hf) hn ha hr fun r' hr' hn' hle => ?_
    have h1 := (hp f hf).1 hn
    by_cases h2 : r'.name = "relpscost"
    · have := (hp r' (ho.1.mem_iff.1 hr')).2.1 h2
      omega
    · have := (hp r' (ho.1.mem_iff.1 hr')).2.2 hn' h2
      omega
  · intro p hpm hn ha hr hf
    refine decidingRule_eq ho.2 p (ho.1.mem_iff.2 hpm) hn ha hr fun r' hr' hn' hle => ?_
    have h1 := (hp p hpm).2.1 hn
    by_cases h2 : r'.name = "fullstrong"
    · rw [h2]
      exact hf r' (ho.1.mem_iff.1 hr') h2
    · have := (hp r' (ho.1.mem_iff.1 hr')).2.2 h2 hn'
      omega

theorem mem_setStrong_of {rules : List BranchRule} {r : BranchRule} (h : r ∈ rules) : ∃ r' ∈ setStrongBranching rules, r'.name = r.name ∧ r'.maxdepth = r.maxdepth := by
  have h1 : (r.name, r.maxdepth) ∈ (setStrongBranching rules).map fun r => (r.name, r.maxdepth) := by
    rw [(C44_strong rules).1]
    exact List.mem_map_of_mem h
  obtain ⟨r', h2, h3⟩ := List.mem_map.1 h1
  exact ⟨r', h2, (Prod.mk.inj h3).1, (Prod.mk.inj h3).2⟩

/-- **C162.** With the strong strategy, full strong branching decides at every node, whatever the priorities were; where it does not run, `relpscost` does. -/
theorem C162_strong (rules order : List BranchRule) (hf : ∃ f ∈ rules, f.name = "fullstrong" ∧ f.maxdepth = -1) (hp : ∃ p ∈ rules, p.name = "relpscost" ∧ p.maxdepth = -1)
    (d : Int) (rules' : List BranchRule) (h : setBranchingStrategy rules 1 d = .ok rules') (ho : IsTryOrder rules' order) (runs : String → Bool) (depth : Nat) :
    (runs "fullstrong" = true → decidingRule runs depth order = some "fullstrong") ∧
    (runs "fullstrong" = false → runs "relpscost" = true → decidingRule runs depth order = some "relpscost") := by
  obtain rfl : setStrongBranching rules = rules' := Res.ok.inj h
  have key := strong_decides (fun r hr => mem_setStrong hr) ho runs depth
  obtain ⟨f, hfm, hfn, hfd⟩ := hf
  obtain ⟨f', hf', hfn', hfd'⟩ := mem_setStrong_of hfm
  obtain ⟨p, hpm, hpn, hpd⟩ := hp
  obtain ⟨p', hp', hpn', hpd'⟩ := mem_setStrong_of hpm
  refine ⟨key.1 f' hf' (hfn'.trans hfn) (by simp [BranchRule.allowed, hfd', hfd]), fun h1 h2 => ?_⟩
  exact key.2 p' hp' (hpn'.trans hpn) (by simp [BranchRule.allowed, hpd', hpd]) h2 fun _ _ _ => by rw [h1, Bool.and_false]

/-- **C162.** With the strategy for the top of the tree and a maximal depth `d`, full strong branching decides at the nodes down to depth `d`, and `relpscost` at those below; with -1 there is
no limit, and a maximal depth below -1 turns strong branching off everywhere. -/
theorem C162_tree_top (rules order : List BranchRule) (hn : (rules.map (·.name)).Nodup) (hp : ∃ p ∈ rules, p.name = "relpscost" ∧ p.maxdepth = -1)
    (d : Int) (rules' : List BranchRule) (h : setBranchingStrategy rules 2 d = .ok rules') (ho : IsTryOrder rules' order) (runs : String → Bool) (depth : Nat) :
    (runs "fullstrong" = true → d = -1 ∨ (depth : Int) ≤ d → decidingRule runs depth order = some "fullstrong") ∧
    (runs "relpscost" = true → d ≠ -1 → d < depth → decidingRule runs depth order = some "relpscost") := by
  obtain ⟨h1, A, r, B, h2, h3, h4⟩ := (C44_tree_top rules d).2 rules' h
  have hprio : ∀ r ∈ rules', (r.name = "fullstrong" → r.priority = 4000) ∧ (r.name = "relpscost" → r.priority = 3000) ∧
      (r.name ≠ "fullstrong" → r.name ≠ "relpscost" → r.priority < 3000) := by
    intro x hx
    have hx' : (x.name, x.priority) ∈ (setStrongBranching rules).map fun r => (r.name, r.priority) := by
      rw [← h1]
      exact List.mem_map_of_mem hx
    obtain ⟨y, hy, hyx⟩ := List.mem_map.1 hx'
    have := mem_setStrong hy
    rw [(Prod.mk.inj hyx).1, (Prod.mk.inj hyx).2] at this
    exact this
  have hnames : (setStrongBranching rules).map (·.name) = rules.map (·.name) := by
    have := congrArg (List.map Prod.fst) (C44_strong rules).1
    simpa [List.map_map, Function.comp_def] using this
  have hdepth : ∀ x ∈ rules', x.name = "fullstrong" → x.maxdepth = d := by
    intro x hx hxn
    rw [← hnames, h2, List.map_append, List.map_cons, List.nodup_append, List.nodup_cons] at hn
    rw [h4] at hx
    rcases List.mem_append.1 hx with hA | hB
    · exact absurd (hxn.trans h3.symm) (hn.2.2 x.name (List.mem_map_of_mem hA) r.name (by simp))
    · rcases List.mem_cons.1 hB with rfl | hB'
      · rfl
      · exact absurd (by rw [h3, ← hxn]; exact List.mem_map_of_mem hB') hn.2.1.1
  have key := strong_decides hprio ho runs depth
  refine ⟨fun hr hd => ?_, fun hr hd1 hd2 => ?_⟩
  · refine key.1 { r with maxdepth := d } (by rw [h4]; simp) h3 ?_ hr
    simpa [BranchRule.allowed] using hd
  · obtain ⟨p, hpm, hpn, hpd⟩ := hp
    obtain ⟨p', hp', hpn', hpd'⟩ := mem_setStrong_of hpm
    have hp'' : p' ∈ rules' := by
      rw [h2] at hp'
      rw [h4]
      rcases List.mem_append.1 hp' with hA | hB
      · exact List.mem_append_left _ hA
      · rcases List.mem_cons.1 hB with rfl | hB'
        · rw [hpn, h3] at hpn'
          exact absurd hpn' (by decide)
        · exact List.mem_append_right _ (List.mem_cons_of_mem _ hB')
    refine key.2 p' hp'' (hpn'.trans hpn) (by simp [BranchRule.allowed, hpd', hpd]) hr fun f hf hfn => ?_
    have : f.allowed depth = false := by
      simp only [BranchRule.allowed, hdepth f hf hfn, decide_eq_false_iff_not]
      omega
    rw [this, Bool.false_and]

/-- **C162.** With the strategy `RELPSCOST`, `relpscost` decides at every node where it runs. -/
theorem C162_relpscost (rules order : List BranchRule) (hp : ∃ p ∈ rules, p.name = "relpscost" ∧ p.maxdepth = -1) (d : Int) (rules' : List BranchRule)
    (h : setBranchingStrategy rules 0 d = .ok rules') (ho : IsTryOrder rules' order) (runs : String → Bool) (depth : Nat) (hr : runs "relpscost" = true) :
    decidingRule runs depth order = some "relpscost" := by
  obtain rfl : setRelpscostBranching rules = rules' := Res.ok.inj h
  obtain ⟨p, hpm, hpn, hpd⟩ := hp
  have h1 : (p.name, p.maxdepth) ∈ (setRelpscostBranching rules).map fun r => (r.name, r.maxdepth) := by
    rw [(C44_relpscost rules).1]
    exact List.mem_map_of_mem hpm
  obtain ⟨p', h2, h3⟩ := List.mem_map.1 h1
  have hn : p'.name = "relpscost" := (Prod.mk.inj h3).1.trans hpn
  refine decidingRule_eq ho.2 p' (ho.1.mem_iff.2 h2) hn (by simp [BranchRule.allowed, (Prod.mk.inj h3).2, hpd]) hr fun r' hr' hn' hle => ?_
  have := (C44_relpscost rules).2 p' h2 r' (ho.1.mem_iff.1 hr') hn hn'
  omega

/-- **C162.** With any other strategy, in particular `PSCOST`, the rule with the highest priority before decides (in SCIP this is `relpscost`), and the maximal depth has no effect. -/
theorem C162_other (rules order : List BranchRule) (strategy : Nat) (hs : 3 ≤ strategy) (r : BranchRule) (hr : r ∈ rules) (hd : r.maxdepth = -1)
    (hmax : ∀ r' ∈ rules, r'.name ≠ r.name → r'.priority < r.priority) (d : Int) (rules' : List BranchRule) (h : setBranchingStrategy rules strategy d = .ok rules')
    (ho : IsTryOrder rules' order) (runs : String → Bool) (depth : Nat) (hrun : runs r.name = true) : decidingRule runs depth order = some r.name := by
  rw [C44_others rules strategy d hs] at h
  obtain rfl : rules = rules' := Res.ok.inj h
  refine decidingRule_eq ho.2 r (ho.1.mem_iff.2 hr) rfl (by simp [BranchRule.allowed, hd]) hrun fun r' hr' hn' hle => ?_
  have := hmax r' (ho.1.mem_iff.1 hr') hn'
  omega

/-- Some rules of SCIP with their priorities. -/
def someRules : List BranchRule := [⟨"relpscost", 10000, -1⟩, ⟨"pscost", 2000, -1⟩, ⟨"inference", 1000, -1⟩, ⟨"mostinf", 100, -1⟩, ⟨"fullstrong", 0, -1⟩]

def someRulesTop : List BranchRule := [⟨"fullstrong", 4000, 10⟩, ⟨"relpscost", 3000, -1⟩, ⟨"pscost", 2000, -1⟩, ⟨"inference", 1000, -1⟩, ⟨"mostinf", 1000, -1⟩]

/-- The hypotheses of C162_tree_top with the maximal depth 10: strong branching at depth 10, not at depth 11. -/
example : (∃ rules', setBranchingStrategy someRules 2 10 = .ok rules' ∧ IsTryOrder rules' someRulesTop) ∧ (someRules.map (·.name)).Nodup ∧
    decidingRule (fun _ => true) 10 someRulesTop = some "fullstrong" ∧ decidingRule (fun _ => true) 11 someRulesTop = some "relpscost" := by
  refine ⟨⟨[⟨"relpscost", 3000, -1⟩, ⟨"pscost", 2000, -1⟩, ⟨"inference", 1000, -1⟩, ⟨"mostinf", 1000, -1⟩, ⟨"fullstrong", 4000, 10⟩], by decide +kernel, by decide +kernel, by decide +kernel⟩,
    by decide +kernel, by decide +kernel, by decide +kernel⟩

/-- With the strategy `PSCOST` (3) the rules are tried as before, and `relpscost` decides. -/
example : setBranchingStrategy someRules 3 10 = .ok someRules ∧ IsTryOrder someRules someRules ∧ decidingRule (fun _ => true) 4 someRules = some "relpscost" :=
  ⟨by decide +kernel, ⟨by decide +kernel, by decide +kernel⟩, by decide +kernel⟩

end Pctsp
