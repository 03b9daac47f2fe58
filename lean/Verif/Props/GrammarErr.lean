import Verif.Proofs.GrammarErr
import Verif.Props.Steuer
/-
Property C71: the errors of grammar analysis name a cause that exists, and analysis of a grammar without left
recursion always returns.
-/
namespace HPP
open Spec
variable {I : Type}

/-- **C71**, FIRST: on well-formed data `get_first_sets` never panics, and every error it returns is
`MissingProduction` of a non-terminal that some alternative uses and that has no rule. -/
theorem C71_first_errors {pd : ParserData I} (hw : WellFormed pd) (ho : HashOrder) (fuel : Nat) :
    getFirstSets ho fuel pd ≠ .panic ∧
    ∀ e, getFirstSets ho fuel pd = .err e → ∃ X, UndefinedUse pd X ∧ e = .missingProduction X :=
  getFirstSets_fine hw ho fuel

/-- **C71**, FIRST returns: without left recursion, whether or not all symbols are defined, `get_first_sets`
returns, recursing no deeper than the number of rules plus one. -/
theorem C71_first_returns {pd : ParserData I} (hw : WellFormed pd) (hlr : ∀ A, ¬ LeftRecursive (grammarOf pd) A)
    (ho : HashOrder) {fuel : Nat} (hf : pd.rules.length + 1 ≤ fuel) :
    (∃ fs, getFirstSets ho fuel pd = .ok fs) ∨
      ∃ X, UndefinedUse pd X ∧ getFirstSets ho fuel pd = .err (.missingProduction X) := by
  have h1 := getFirstSets_returns hw hlr ho hf
  have h2 := getFirstSets_fine hw ho fuel
  cases h : getFirstSets ho fuel pd with
  | ok fs => exact .inl ⟨fs, rfl⟩
  | err e => obtain ⟨X, hX, rfl⟩ := h2.2 e h; exact .inr ⟨X, hX, rfl⟩
  | panic => exact absurd h h2.1
  | timeout => exact absurd h h1

/-- The undefined symbol of `start -> "x" b;` is not needed for FIRST; it is for `start -> b;`. -/
def Samples.undefinedData2 : ParserData Nat :=
  let pd : ParserData Nat := ParserData.new
  let (start, pd) := pd.getOrAddNonTerminal (c% "start")
  let (b, pd) := pd.getOrAddNonTerminal (c% "b")
  pd.setProductions start [[b]]

example : WellFormed Samples.undefinedData2 ∧ UndefinedUse Samples.undefinedData2 1 ∧
    getFirstSets .insertion 2 Samples.undefinedData2 = .err (.missingProduction 1) :=
  ⟨Samples.wf_of_check rfl, ⟨rfl, rfl, 0, _, .notEmpty [1], rfl, .head _, .head _⟩, rfl⟩

/-- **C71**, FOLLOW: with the computed FIRST sets `get_follow_sets` never panics, and every error says that
the start symbol has no rule, or names a non-terminal that is used and has no rule. -/
theorem C71_follow_errors {pd : ParserData I} (hw : WellFormed pd) {ho1 ho : HashOrder} {fuel1 fuel start : Nat}
    {fs : NamedSets} (hfs : getFirstSets ho1 fuel1 pd = .ok fs) :
    getFollowSets ho fuel start fs pd ≠ .panic ∧
    ∀ e, getFollowSets ho fuel start fs pd = .err e →
      (e = .graphNodeDoesNotExist start ∧ AMap.get pd.rules start = none) ∨
      ∃ X, UndefinedUse pd X ∧ (e = .missingFirstSet X ∨ e = .graphNodeDoesNotExist X) :=
  getFollowSets_err hw hfs

/-- All three reports occur: an undefined last symbol, an undefined symbol behind another non-terminal, and a
start symbol without rule. -/
def Samples.undefinedData3 : ParserData Nat :=
  let pd : ParserData Nat := ParserData.new
  let (start, pd) := pd.getOrAddNonTerminal (c% "start")
  let (a, pd) := pd.getOrAddNonTerminal (c% "a")
  let (b, pd) := pd.getOrAddNonTerminal (c% "b")
  let (x, pd) := pd.getOrAddTerminal (c% "x")
  let pd := pd.setProductions start [[a, b]]
  pd.setProductions a [[x]]

example : WellFormed Samples.undefinedData ∧ ∃ fs, getFirstSets .insertion 5 Samples.undefinedData = .ok fs ∧
    getFollowSets .insertion 5 0 fs Samples.undefinedData = .err (.graphNodeDoesNotExist 2) ∧
    getFollowSets .insertion 5 2 fs Samples.undefinedData = .err (.graphNodeDoesNotExist 2) :=
  ⟨Samples.wf_of_check rfl, _, rfl, rfl, rfl⟩

example : WellFormed Samples.undefinedData3 ∧ ∃ fs, getFirstSets .insertion 5 Samples.undefinedData3 = .ok fs ∧
    getFollowSets .insertion 5 0 fs Samples.undefinedData3 = .err (.missingFirstSet 2) :=
  ⟨Samples.wf_of_check rfl, _, rfl, rfl⟩

/-- **C71**, conflicts: with the computed FIRST and FOLLOW sets every error of `get_steuermaps` is
`SteuerSetsNotDistinct`, and what it reports is true: the rule it names has two alternatives that would both be
chosen on the lookahead it names, the later one being the one its text identifies. -/
theorem C71_conflict_errors {pd : ParserData I} (hw : WellFormed pd) {ho1 ho2 ho : HashOrder} {fuel1 fuel2 start : Nat}
    {fs : NamedSets} {fo : NamedSetsNoEmpty}
    (hfs : getFirstSets ho1 fuel1 pd = .ok fs) (hfo : getFollowSets ho2 fuel2 start fs pd = .ok fo) {e : GErr}
    (h : getSteuermaps ho fs fo pd = .err e) :
    ∃ t c A, e = .steuerSetsNotDistinct t c A ∧ TrueConflict pd start t c A := by
  obtain ⟨-, -, -, -, h5⟩ := getFollowSets_ok (getFirstSets_sound hfs).1 hw.lengths hfo
  refine getSteuermaps_err (tables_of hw.lengths hfs hfo) hw ?_ h
  intro A r hr p hp x hx hT
  exact AMap.mem_keys_iff.mp ((h5 (A, r) (AMap.mem_of_get hr) p hp x hx).2 hT)

/-- **C71**, panics: with the computed FIRST and FOLLOW sets `get_steuermaps` always returns, and it panics only if some
alternative begins with the empty terminal; if one does, no maps are built. -/
theorem C71_steuermaps_panics {pd : ParserData I} (hw : WellFormed pd) {ho1 ho2 ho : HashOrder} {fuel1 fuel2 start : Nat}
    {fs : NamedSets} {fo : NamedSetsNoEmpty}
    (hfs : getFirstSets ho1 fuel1 pd = .ok fs) (hfo : getFollowSets ho2 fuel2 start fs pd = .ok fo) :
    getSteuermaps ho fs fo pd ≠ .timeout ∧
    (getSteuermaps ho fs fo pd = .panic → ¬ NoLeadingEmptyTerminal pd) ∧
    (¬ NoLeadingEmptyTerminal pd → ∀ maps, getSteuermaps ho fs fo pd ≠ .ok maps) := by
  obtain ⟨-, -, -, -, h5⟩ := getFollowSets_ok (getFirstSets_sound hfs).1 hw.lengths hfo
  have hd : AllDefined pd := fun A r hr p hp x hx hT => AMap.mem_keys_iff.mp ((h5 (A, r) (AMap.mem_of_get hr) p hp x hx).2 hT)
  have hno : NoLeadingEmptyTerminal pd → getSteuermaps ho fs fo pd ≠ .panic ∧ getSteuermaps ho fs fo pd ≠ .timeout := by
    intro hne
    obtain ⟨h1, h2⟩ := C16_conflict_detection_exact hw hd hne hfs hfo ho
    by_cases hc : ControlDisjoint pd start
    · obtain ⟨maps, hm, -⟩ := h1 hc
      rw [hm]; exact ⟨by simp, by simp⟩
    · obtain ⟨t, c, A, hm⟩ := h2 hc
      rw [hm]; exact ⟨by simp, by simp⟩
  refine ⟨?_, fun h hne => (hno hne).1 h, fun hne maps h => hne ?_⟩
  · simp only [getSteuermaps]
    intro h
    rcases Res.bind_eq_timeout.mp h with h | ⟨s, -, h⟩
    · obtain ⟨st, hst, -⟩ := (tables_of hw.lengths hfs hfo).steuer ho
      rw [hst] at h; cases h
    · exact getSteuermapsLoop_ne_timeout _ _ h
  · exact getSteuermaps_ok_noEmpty h

/-- `start -> "";`: the sets are computed, and building the maps panics. -/
example : ∃ (pd : ParserData Nat) (fs : NamedSets) (fo : NamedSetsNoEmpty), WellFormed pd ∧ ¬ NoLeadingEmptyTerminal pd ∧
    getFirstSets .insertion 5 pd = .ok fs ∧ getFollowSets .insertion 5 0 fs pd = .ok fo ∧
    getSteuermaps .insertion fs fo pd = .panic := by
  refine ⟨(let pd : ParserData Nat := ParserData.new
    let (start, pd) := pd.getOrAddNonTerminal (c% "start")
    let (x, pd) := pd.getOrAddTerminal []
    pd.setProductions start [[x]]), _, _, Samples.wf_of_check rfl, ?_, rfl, rfl, rfl⟩
  intro h
  exact h 0 _ rfl 1 [] (by decide) rfl _ rfl rfl

/-- A report about the end of the script: `start -> a | #; a -> "x" | #;` both alternatives of `start` fit the
end, which is written `#`. -/
def Samples.conflictEndData : ParserData Nat :=
  let pd : ParserData Nat := ParserData.new
  let (start, pd) := pd.getOrAddNonTerminal (c% "start")
  let (a, pd) := pd.getOrAddNonTerminal (c% "a")
  let (x, pd) := pd.getOrAddTerminal (c% "x")
  let pd := pd.setProductions start [[a], []]
  pd.setProductions a [[x], []]

example : WellFormed Samples.conflictEndData ∧ ∃ fs fo, getFirstSets .insertion 5 Samples.conflictEndData = .ok fs ∧
    getFollowSets .insertion 5 0 fs Samples.conflictEndData = .ok fo ∧
    getSteuermaps .insertion fs fo Samples.conflictEndData =
      .err (.steuerSetsNotDistinct (c% "follow_set") '#' 0) :=
  ⟨Samples.wf_of_check rfl, _, _, rfl, rfl, rfl⟩

example : WellFormed Samples.conflictData ∧ ∃ fs fo, getFirstSets .insertion 5 Samples.conflictData = .ok fs ∧
    getFollowSets .insertion 5 0 fs Samples.conflictData = .ok fo ∧
    getSteuermaps .insertion fs fo Samples.conflictData = .err (.steuerSetsNotDistinct (c% "ac") 'a' 0) :=
  ⟨Samples.wf_of_check rfl, _, _, rfl, rfl, rfl⟩

/-- **C71**, the whole construction: `Parser::new_from_parser_data` on a grammar without left recursion always
returns: with a parser if the grammar is acceptable, and by panicking otherwise (it unwraps every error; it has
no other way to fail). -/
theorem C71_construction_returns {pd : ParserData I} (hw : WellFormed pd)
    (hlr : ∀ A, ¬ LeftRecursive (grammarOf pd) A) (ho : HashOrder) (start : Nat) :
    ∃ N, ∀ fuel, N ≤ fuel →
      (Acceptable pd start ∧ ∃ P, Parser.newFromParserData ho fuel pd start = .ok P) ∨
      (¬ Acceptable pd start ∧ Parser.newFromParserData ho fuel pd start = .panic) := by
  by_cases hacc : Acceptable pd start
  · obtain ⟨N, hN⟩ := newFromParserData_succeeds hw hacc ho
    exact ⟨N, fun fuel hf => .inl ⟨hacc, hN fuel hf⟩⟩
  have hno : ∀ fuel P, Parser.newFromParserData ho fuel pd start ≠ .ok P :=
    fun fuel P h => hacc (newFromParserData_ok hw h).1
  by_cases hex : ∃ n fs, getFirstSets ho n pd = .ok fs
  · obtain ⟨n0, fs, hfs⟩ := hex
    obtain ⟨N, r, hr, hN⟩ := C14_follow_terminates ho start fs pd
    refine ⟨max N n0, fun fuel hf => .inr ⟨hacc, ?_⟩⟩
    have h1 : getFirstSets ho fuel pd = .ok fs := getFirstSets_mono hfs (by omega)
    have h2 := hN fuel (by omega)
    have hno := hno fuel
    simp only [Parser.newFromParserData, h1, Res.unwrap_ok, Res.bind_ok, h2] at hno ⊢
    cases r with
    | timeout => exact absurd rfl hr
    | err e => rfl
    | panic => rfl
    | ok fo =>
      simp only [Res.unwrap_ok, Res.bind_ok] at hno ⊢
      obtain ⟨els, hels, -⟩ := getElementsVerbose_spec (ε := PErr) hw
      rw [hels] at hno ⊢
      simp only [Res.bind_ok] at hno ⊢
      have hnt : getSteuermaps ho fs fo pd ≠ .timeout := by
        intro h
        simp only [getSteuermaps] at h
        obtain ⟨st, hst, -⟩ := (tables_of hw.lengths h1 h2).steuer ho
        rw [hst, Res.bind_ok] at h
        exact getSteuermapsLoop_ne_timeout _ _ h
      cases hm : getSteuermaps ho fs fo pd with
      | ok maps => rw [hm] at hno; exact absurd rfl (hno _)
      | err e => rfl
      | panic => rfl
      | timeout => exact absurd hm hnt
  · refine ⟨pd.rules.length + 1, fun fuel hf => .inr ⟨hacc, ?_⟩⟩
    rcases C71_first_returns hw hlr ho hf with ⟨fs, hfs⟩ | ⟨X, -, h⟩
    · exact absurd ⟨fuel, fs, hfs⟩ hex
    · simp only [Parser.newFromParserData, h]; rfl

/-- The three outcomes on complete grammars: left recursion is exactly when the construction does not return. -/
theorem C71_construction_outcomes {pd : ParserData I} (hw : WellFormed pd) (hd : AllDefined pd) (ho : HashOrder)
    (start : Nat) :
    ((∃ A, LeftRecursive (grammarOf pd) A) ∧
      ∀ fuel, Parser.newFromParserData ho fuel pd start = .timeout) ∨
    ((∀ A, ¬ LeftRecursive (grammarOf pd) A) ∧ ∃ N, ∀ fuel, N ≤ fuel →
      (Acceptable pd start ∧ ∃ P, Parser.newFromParserData ho fuel pd start = .ok P) ∨
      (¬ Acceptable pd start ∧ Parser.newFromParserData ho fuel pd start = .panic)) := by
  by_cases hlr : ∃ A, LeftRecursive (grammarOf pd) A
  · refine .inl ⟨hlr, fun fuel => ?_⟩
    obtain ⟨A, hA⟩ := hlr
    simp only [Parser.newFromParserData, C12_left_recursive_diverges hw hd hA ho fuel]
    rfl
  · have hlr : ∀ A, ¬ LeftRecursive (grammarOf pd) A := fun A hA => hlr ⟨A, hA⟩
    exact .inr ⟨hlr, C71_construction_returns hw hlr ho start⟩

/-- All outcomes occur: the list grammar is built, the conflicting grammar panics, and a left-recursive grammar
does not return. -/
example : (∃ P, Parser.newFromParserData .insertion 5 Samples.listData 0 = .ok P) ∧
    Parser.newFromParserData .insertion 5 Samples.conflictData 0 = .panic ∧
    WellFormed Samples.leftRecData ∧ AllDefined Samples.leftRecData ∧
    LeftRecursive (grammarOf Samples.leftRecData) 0 :=
  ⟨Samples.listData_built, rfl, Samples.wf_of_check rfl, Samples.defined_of_check rfl, leftRecData_leftRecursive⟩

end HPP
