import Verif.Proofs.FirstTerm
import Verif.Props.Samples
/-
Properties C10, C11, C12: FIRST sets.
-/
namespace HPP
open Spec
variable {I : Type}

/-- **C10.** Whenever `get_first_sets` returns `Ok` (whatever the hash order), there is a set for exactly
the non-terminals that have a rule, and the set of `A` contains `c` exactly when `A` derives a form
starting with `c`, `Empty` exactly when `A` derives the empty text, and never `Terminate`. -/
theorem C10_first_sets_exact {ho : HashOrder} {fuel : Nat} {pd : ParserData I} {fs : NamedSets}
    (hk : ∀ A r, AMap.get pd.rules A = some r → pd.elementTypes[A]? = some .nonTerminal)
    (h : getFirstSets ho fuel pd = .ok fs) :
    (∀ A, (∃ S, AMap.get fs A = some S) ↔ ∃ r, AMap.get pd.rules A = some r) ∧
    ∀ A S, AMap.get fs A = some S →
      (∀ c, .char c ∈ S ↔ FirstChar (grammarOf pd) [.nt A] c) ∧
      (.empty ∈ S ↔ Nullable (grammarOf pd) [.nt A]) ∧
      SetMemberE.terminate ∉ S := by
  obtain ⟨h1, h2⟩ := getFirstSets_sound h
  refine ⟨fun A => ⟨?_, ?_⟩, fun A S hS => ?_⟩
  · rintro ⟨S, hS⟩
    exact AMap.mem_keys_iff.mp (h1 A S hS).2.2.2
  · rintro ⟨r, hr⟩
    exact AMap.mem_keys_iff.mp ((h2 A (AMap.mem_keys_iff.mpr ⟨r, hr⟩)).2 (hk A r hr))
  · have := (h1 A S hS).1
    exact ⟨this.char, this.empty, this.noTerm⟩

/-- The hypotheses of C10 hold for the sample grammar with three FIRST sets. -/
example : ∃ fs, getFirstSets .reversed 5 Samples.listData = .ok fs ∧ fs.length = 3 ∧
    (∀ A r, AMap.get Samples.listData.rules A = some r →
      Samples.listData.elementTypes[A]? = some .nonTerminal) :=
  ⟨_, rfl, rfl, Samples.listData_wf.keysNT⟩

/-- **C11.** FIRST of a sequence of elements: given the FIRST sets computed by `get_first_sets`,
`first_set_of_partial els` contains `c` exactly when `els` derives a form starting with `c` and `Empty`
exactly when `els` is not the empty sequence and derives the empty text. -/
theorem C11_first_of_sequence {ho : HashOrder} {fuel : Nat} {pd : ParserData I} {fs : NamedSets}
    (h : getFirstSets ho fuel pd = .ok fs) {els : List Nat} {S : List SetMemberE}
    (hS : firstSetOfPartial pd fs els = .ok S) :
    (∀ c, .char c ∈ S ↔ FirstChar (grammarOf pd) (formOf pd els) c) ∧
    (.empty ∈ S ↔ els ≠ [] ∧ Nullable (grammarOf pd) (formOf pd els)) ∧
    SetMemberE.terminate ∉ S := by
  cases els with
  | nil =>
    simp only [firstSetOfPartial, firstSetOfPartialLoop, Res.ok.injEq] at hS
    subst hS
    simp [not_firstChar_nil]
  | cons e es =>
    have := firstSetOfPartial_exact (getFirstSets_sound h).1 (by simp) hS
    exact ⟨this.char, by simpa using this.empty, this.noTerm⟩

/-- **C11**, the other half: `first_set_of_partial` succeeds on every sequence of existing elements whose
non-terminals have rules. -/
theorem C11_first_of_sequence_succeeds {ho : HashOrder} {fuel : Nat} {pd : ParserData I} {fs : NamedSets}
    (hw : WellFormed pd) (h : getFirstSets ho fuel pd = .ok fs) {els : List Nat}
    (hels : ∀ e ∈ els, e < pd.elementTypes.length ∧
      (pd.elementTypes[e]? = some .nonTerminal → ∃ r, AMap.get pd.rules e = some r)) :
    ∃ S, firstSetOfPartial pd fs els = .ok S := by
  apply firstSetOfPartial_succeeds
  intro e he
  obtain ⟨h1, h2⟩ := hels e he
  rcases WellFormed.element hw h1 with h3 | h3
  · exact .inl h3
  · refine .inr ⟨h3, AMap.mem_keys_iff.mpr ?_⟩
    exact ((C10_first_sets_exact hw.keysNT h).1 e).mpr (h2 h3)

/-- A sequence with a nullable element: `rest item` in the sample grammar. -/
example : ∃ fs, getFirstSets .insertion 5 Samples.listData = .ok fs ∧
    firstSetOfPartial Samples.listData fs [2, 1] = .ok [.char ',', .char 'a', .char 'c'] :=
  ⟨_, rfl, rfl⟩

/-- **C12.** If every used non-terminal has a rule, `get_first_sets` terminates with `Ok` (for every
iteration order) if and only if no non-terminal is left recursive. -/
theorem C12_first_terminates_iff {pd : ParserData I} (hw : WellFormed pd) (hd : AllDefined pd) :
    (∃ N, ∀ fuel, N ≤ fuel → ∀ ho : HashOrder, ∃ fs, getFirstSets ho fuel pd = .ok fs) ↔
      ∀ A, ¬ LeftRecursive (grammarOf pd) A := by
  constructor
  · rintro ⟨N, hN⟩ A hA
    obtain ⟨fs, h⟩ := hN N (Nat.le_refl _) .insertion
    have hk : A ∈ AMap.keys pd.rules := by
      obtain ⟨v, hv⟩ := hA
      obtain ⟨r, ⟨r', hr', _⟩, _⟩ := derivesPlus_nt_iff.mp hv
      exact AMap.mem_keys_iff.mpr ⟨r', hr'⟩
    exact ((getFirstSets_sound h).2 A hk).1.not_leftRecursive hw.keysNT hA
  · intro h
    exact getFirstSets_complete (firstGood_of_not_leftRecursive hw hd h)

/-- **C12**, left-recursive grammars: `get_first_sets` never returns `Ok`, whatever else the grammar
contains. -/
theorem C12_left_recursive_never_ok {pd : ParserData I}
    (hk : ∀ A r, AMap.get pd.rules A = some r → pd.elementTypes[A]? = some .nonTerminal)
    {A : Nat} (hA : LeftRecursive (grammarOf pd) A) (ho : HashOrder) (fuel : Nat) (fs : NamedSets) :
    getFirstSets ho fuel pd ≠ .ok fs := by
  intro h
  have hk' : A ∈ AMap.keys pd.rules := by
    obtain ⟨v, hv⟩ := hA
    obtain ⟨r, ⟨r', hr', _⟩, _⟩ := derivesPlus_nt_iff.mp hv
    exact AMap.mem_keys_iff.mpr ⟨r', hr'⟩
  exact ((getFirstSets_sound h).2 A hk').1.not_leftRecursive hk hA

/-- **C12**, left-recursive complete grammars: the recursion never ends (the model runs out of any amount
of fuel, never an error or panic). -/
theorem C12_left_recursive_diverges {pd : ParserData I} (hw : WellFormed pd) (hd : AllDefined pd)
    {A : Nat} (hA : LeftRecursive (grammarOf pd) A) (ho : HashOrder) (fuel : Nat) :
    getFirstSets ho fuel pd = .timeout := by
  rcases getFirstSets_clean hw hd ho fuel with ⟨fs, h⟩ | h
  · exact absurd h (C12_left_recursive_never_ok hw.keysNT hA ho fuel fs)
  · exact h

/-- The sample grammar is complete, well formed and not left recursive. -/
example : WellFormed Samples.listData ∧ AllDefined Samples.listData ∧
    ∃ N, ∀ fuel, N ≤ fuel → ∀ ho : HashOrder, ∃ fs, getFirstSets ho fuel Samples.listData = .ok fs := by
  refine ⟨Samples.listData_wf, Samples.listData_defined, ?_⟩
  apply (C12_first_terminates_iff Samples.listData_wf Samples.listData_defined).mpr
  intro A
  exact fun h => C12_left_recursive_never_ok Samples.listData_wf.keysNT h _ _ _ Samples.listData_first

/-- The grammar `start -> start "a" | "b"` is well formed, complete and left recursive. -/
theorem leftRecData_leftRecursive : LeftRecursive (grammarOf Samples.leftRecData) 0 := by
  refine ⟨[.ch 'a'], derivesPlus_nt_iff.mpr ⟨_, ?_, .refl⟩⟩
  exact ⟨_, rfl, .notEmpty [0, 1], List.Mem.head _, rfl⟩

example : WellFormed Samples.leftRecData ∧ AllDefined Samples.leftRecData ∧
    LeftRecursive (grammarOf Samples.leftRecData) 0 :=
  ⟨Samples.leftRecData_wf, Samples.leftRecData_defined, leftRecData_leftRecursive⟩

end HPP
