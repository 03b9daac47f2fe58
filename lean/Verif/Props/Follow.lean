import Verif.Proofs.FollowPanic
import Verif.Props.First
/-
Properties C13, C14: FOLLOW sets.
-/
namespace HPP
open Spec
variable {I : Type}

/-- **C13.** Whenever `get_follow_sets` returns `Ok` on the FIRST sets computed before, there is a set for
exactly the non-terminals that have a rule; `c` is in the set of `A` exactly when some non-terminal with a
rule derives a form in which `A` is immediately followed by `c`, and `Terminate` is in it exactly when the
start symbol derives a form ending in `A`. -/
theorem C13_follow_sets_exact {ho1 ho2 : HashOrder} {fuel1 fuel2 start : Nat} {pd : ParserData I}
    {fs : NamedSets} {fo : NamedSetsNoEmpty}
    (hlen : pd.elementTypes.length = pd.elementData.length)
    (hfs : getFirstSets ho1 fuel1 pd = .ok fs) (h : getFollowSets ho2 fuel2 start fs pd = .ok fo) :
    (∀ A, (∃ S, AMap.get fo A = some S) ↔ ∃ r, AMap.get pd.rules A = some r) ∧
    ∀ A S, AMap.get fo A = some S →
      (∀ c, .char c ∈ S ↔ FollowChar (grammarOf pd) A c) ∧
      (.terminate ∈ S ↔ FollowEnd (grammarOf pd) start A) := by
  obtain ⟨h1, h2, -⟩ := getFollowSets_ok (getFirstSets_sound hfs).1 hlen h
  refine ⟨fun A => (h1 A).trans AMap.mem_keys_iff, fun A S hS => ⟨fun c => ?_, ?_⟩⟩
  · rw [h2 A S hS, followG_char_iff]
  · rw [h2 A S hS, followG_end_iff]

/-- The hypotheses of C13 hold for the sample grammar. -/
theorem Samples.listData_follow : getFollowSets .insertion 5 0
    [(1, [.char 'a', .char 'c']), (0, [.char 'a', .char 'c']), (2, [.char ',', .empty])] Samples.listData =
    .ok [(0, [.terminate]), (2, [.terminate]), (1, [.char ',', .terminate])] := rfl

/-- **C14.** `get_follow_sets` terminates on every grammar, for every table of FIRST sets, start symbol and
iteration order: there is one outcome, which is not divergence, that it produces. -/
theorem C14_follow_terminates (ho : HashOrder) (start : Nat) (fs : NamedSets) (pd : ParserData I) :
    ∃ N r, r ≠ .timeout ∧ ∀ fuel, N ≤ fuel → getFollowSets ho fuel start fs pd = r :=
  getFollowSets_terminates ho start fs pd

/-- **C14**, well-formed data: the outcome is `Ok` or `Err`, never a panic. -/
theorem C14_follow_returns {pd : ParserData I} (hw : WellFormed pd) (ho : HashOrder) (start : Nat)
    (fs : NamedSets) :
    ∃ N, ∀ fuel, N ≤ fuel →
      (∃ r, getFollowSets ho fuel start fs pd = .ok r) ∨ ∃ e, getFollowSets ho fuel start fs pd = .err e := by
  obtain ⟨N, r, hr, h⟩ := getFollowSets_terminates ho start fs pd
  refine ⟨N, fun fuel hf => ?_⟩
  have hv := markedGraph_valid ho start fs pd
  have hnp := markedGraph_np ho start fs hw
  cases hm : markedGraph ho start fs pd with
  | ok g =>
    obtain ⟨D, E, K, hview⟩ := (hv.2 g hm).view
    obtain ⟨M, r', hr', _⟩ := makeFollowSets_spec hview ho
    have hbig : getFollowSets ho (max M N) start fs pd = .ok r' := by
      rw [getFollowSets_eq, hm]; exact hr' _ (by omega)
    rw [h _ (by omega)] at hbig
    exact .inl ⟨r', by rw [h fuel hf, hbig]⟩
  | err e => exact .inr ⟨e, by rw [getFollowSets_eq, hm]; rfl⟩
  | panic => exact absurd hm hnp
  | timeout => exact absurd hm hv.1

/-- **C14**, complete grammars: with the computed FIRST sets and a start symbol that has a rule the outcome
is `Ok`. -/
theorem C14_follow_succeeds {pd : ParserData I} (hw : WellFormed pd) (hd : AllDefined pd) {start : Nat}
    {r0 : NTRule I} (hst : AMap.get pd.rules start = some r0) {ho1 : HashOrder} {fuel1 : Nat}
    {fs : NamedSets} (hfs : getFirstSets ho1 fuel1 pd = .ok fs) (ho : HashOrder) :
    ∃ N, ∀ fuel, N ≤ fuel → ∃ r, getFollowSets ho fuel start fs pd = .ok r := by
  refine getFollowSets_succeeds (getFirstSets_sound hfs).1 hw hd (AMap.mem_keys_iff.mpr ⟨_, hst⟩) ?_ ho
  intro n hn
  obtain ⟨r, hr⟩ := AMap.mem_keys_iff.mp hn
  exact ((getFirstSets_sound hfs).2 n hn).2 (hw.keysNT n r hr)

/-- A grammar with cyclic follow dependencies: `start -> a | "x"; a -> "y" start;` (`start` follows `a`,
`a` follows `start`). -/
def Samples.cyclicData : ParserData Nat :=
  let pd : ParserData Nat := ParserData.new
  let (start, pd) := pd.getOrAddNonTerminal (c% "start")
  let (a, pd) := pd.getOrAddNonTerminal (c% "a")
  let (x, pd) := pd.getOrAddTerminal (c% "x")
  let (y, pd) := pd.getOrAddTerminal (c% "y")
  let pd := pd.setProductions start [[a], [x]]
  pd.setProductions a [[y, start]]

example : WellFormed Samples.cyclicData ∧ AllDefined Samples.cyclicData ∧
    (∃ r, AMap.get Samples.cyclicData.rules 0 = some r) ∧
    ∃ fs, getFirstSets .insertion 5 Samples.cyclicData = .ok fs ∧
      ∃ fo, getFollowSets .insertion 5 0 fs Samples.cyclicData = .ok fo ∧
        AMap.get fo 1 = some [.terminate] :=
  ⟨Samples.wf_of_check rfl, Samples.defined_of_check rfl, ⟨_, rfl⟩, _, rfl, _, rfl, rfl⟩

end HPP
