import Verif.Proofs.Rounds
import Verif.Props.GrammarErr
/-
C87: the size of the grammar bounds the construction of a parser.
-/
namespace HPP
open Spec
variable {I : Type} {pd : ParserData I}

/-- **C87**, FOLLOW: with the computed FIRST sets, the `while` loop of `get_follow_sets` runs at most as many rounds as
there are rules (and once if there is none): more rounds being allowed does not change the outcome, and it is not
divergence. -/
theorem C87_follow_rounds {ho1 : HashOrder} {fuel1 : Nat} {fs : NamedSets} (hfs : getFirstSets ho1 fuel1 pd = .ok fs)
    (ho : HashOrder) (start : Nat) :
    ∃ r, r ≠ .timeout ∧ ∀ fuel, pd.rules.length ≤ fuel → 1 ≤ fuel → getFollowSets ho fuel start fs pd = r :=
  getFollowSets_rounds (getFirstSets_sound hfs).1

/-- **C87**, whole construction: for a grammar without left recursion, a recursion depth and a number of rounds of one
more than the number of rules is enough for `Parser::new_from_parser_data` to return, with a parser exactly if the grammar
is acceptable. -/
theorem C87_construction_bound (hw : WellFormed pd) (hlr : ∀ A, ¬ LeftRecursive (grammarOf pd) A) (ho : HashOrder)
    (start : Nat) {fuel : Nat} (hf : pd.rules.length + 1 ≤ fuel) :
    (Acceptable pd start ∧ ∃ P, Parser.newFromParserData ho fuel pd start = .ok P) ∨
    (¬ Acceptable pd start ∧ Parser.newFromParserData ho fuel pd start = .panic) := by
  have hno : ∀ P, Parser.newFromParserData ho fuel pd start = .ok P → Acceptable pd start :=
    fun P h => (newFromParserData_ok hw h).1
  rcases C71_first_returns hw hlr ho hf with ⟨fs, hfs⟩ | ⟨X, -, h⟩
  · obtain ⟨r, hr, hN⟩ := C87_follow_rounds hfs ho start
    have h2 := hN fuel (by omega) (by omega)
    by_cases hacc : Acceptable pd start
    · left
      refine ⟨hacc, ?_⟩
      obtain ⟨r0, hr0⟩ := hacc.startDefined
      obtain ⟨N2, h3⟩ := getFollowSets_succeeds (getFirstSets_sound hfs).1 hw hacc.defined
        (AMap.mem_keys_iff.mpr ⟨_, hr0⟩) (fun n hn => by
          obtain ⟨r, hr⟩ := AMap.mem_keys_iff.mp hn
          exact ((getFirstSets_sound hfs).2 n hn).2 (hw.keysNT n r hr)) ho
      obtain ⟨fo, hfo⟩ := h3 (max N2 fuel) (by omega)
      rw [hN (max N2 fuel) (by omega) (by omega)] at hfo
      subst hfo
      obtain ⟨els, hels, -⟩ := getElementsVerbose_spec (ε := PErr) hw
      obtain ⟨maps, hmaps, -⟩ := (getSteuermaps_spec (tables_of hw.lengths hfs h2) hw hacc.defined
        hacc.noEmptyTerminal ho).1 hacc.disjoint
      exact ⟨Parser.new maps els, by
        simp only [Parser.newFromParserData, hfs, h2, hels, hmaps, Res.unwrap_ok, Res.bind_ok, Res.pure_def]⟩
    · right
      refine ⟨hacc, ?_⟩
      have hno : ∀ P, Parser.newFromParserData ho fuel pd start ≠ .ok P := fun P h => hacc (hno P h)
      simp only [Parser.newFromParserData, hfs, Res.unwrap_ok, Res.bind_ok, h2] at hno ⊢
      cases r with
      | timeout => exact absurd rfl hr
      | err e => rfl
      | panic => rfl
      | ok fo =>
        simp only [Res.unwrap_ok, Res.bind_ok] at hno ⊢
        obtain ⟨els, hels, -⟩ := getElementsVerbose_spec (ε := PErr) hw
        rw [hels] at hno ⊢
        simp only [Res.bind_ok] at hno ⊢
        have hnt : getSteuermaps ho fs fo pd ≠ .timeout := by
          intro h
          simp only [getSteuermaps] at h
          obtain ⟨st, hst, -⟩ := (tables_of hw.lengths hfs h2).steuer ho
          rw [hst, Res.bind_ok] at h
          exact getSteuermapsLoop_ne_timeout _ _ h
        cases hm : getSteuermaps ho fs fo pd with
        | ok maps => rw [hm] at hno; exact absurd rfl (hno _)
        | err e => rfl
        | panic => rfl
        | timeout => exact absurd hm hnt
  · right
    have hp : Parser.newFromParserData ho fuel pd start = .panic := by
      simp only [Parser.newFromParserData, h]; rfl
    refine ⟨fun hacc => ?_, hp⟩
    obtain ⟨fs, hfs⟩ := getFirstSets_depth hw hacc.defined hlr ho hf
    rw [hfs] at h
    cases h

/-- **C87**, so construction with this bound decides whether a grammar is acceptable. -/
theorem C87_decides (hw : WellFormed pd) (ho : HashOrder) (start : Nat) {fuel : Nat} (hf : pd.rules.length + 1 ≤ fuel) :
    (∃ P, Parser.newFromParserData ho fuel pd start = .ok P) ↔ Acceptable pd start := by
  constructor
  · rintro ⟨P, h⟩
    exact (newFromParserData_ok hw h).1
  · intro hacc
    rcases C87_construction_bound hw hacc.noLeftRec ho start hf with ⟨-, h⟩ | ⟨h, -⟩
    · exact h
    · exact absurd hacc h

/-- `start -> a; a -> b; b -> "x";` -/
def Samples.chainData : ParserData Nat :=
  let pd : ParserData Nat := ParserData.new
  let (start, pd) := pd.getOrAddNonTerminal (c% "start")
  let (a, pd) := pd.getOrAddNonTerminal (c% "a")
  let (b, pd) := pd.getOrAddNonTerminal (c% "b")
  let (x, pd) := pd.getOrAddTerminal (c% "x")
  let pd := pd.setProductions start [[a]]
  let pd := pd.setProductions a [[b]]
  pd.setProductions b [[x]]

/-- The number of rounds is needed: with three rules, two rounds are not enough, and neither is a recursion depth of
three. -/
example : ∃ fs, getFirstSets .insertion 4 Samples.chainData = .ok fs ∧ Samples.chainData.rules.length = 3 ∧
    getFollowSets .insertion 2 0 fs Samples.chainData = .timeout ∧
    (∃ fo, getFollowSets .insertion 3 0 fs Samples.chainData = .ok fo) ∧
    getFirstSets .insertion 3 Samples.chainData = .timeout ∧
    ∃ P, Parser.newFromParserData .insertion 4 Samples.chainData 0 = .ok P :=
  ⟨_, rfl, rfl, rfl, ⟨_, rfl⟩, rfl, _, rfl⟩

end HPP
