import Verif.Proofs.Ignoring
import Verif.Props.SameMeaning
/-
C92: what ignored text means for scripts.
-/
namespace HPP
open Spec
variable {I S S' : Type} {cc : CharClass} {rs : List (WrittenRule I)} {text : Str} {P : Parser I} {ho0 : HashOrder} {fuel0 : Nat}

/-- The grammar of a parser that was built from a rule text spells what the rules spell. -/
theorem newFromText_language (hcc : SpaceOk cc) {vm : VM I S} (h : RulesText cc (ReadsSection vm) rs text)
    (hP : Parser.newFromText ho0 fuel0 cc vm text = .ok P) :
    ∃ pd st, WellFormed pd ∧ StartSymbol pd st ∧ Parser.newFromParserData ho0 fuel0 pd st = .ok P ∧
      ∀ s, Language (grammarOf pd) st s ↔ Spells rs [⟨c% "start", .nonTerminal⟩] s := by
  obtain ⟨pd, st, a1, a2, a3, a4, a5, a6⟩ := newFromText_means hcc h hP
  have hty : pd.elementTypes[st]? = some .nonTerminal := by rw [a3.types, List.getElem?_map, a5]; rfl
  exact ⟨pd, st, a2, a3.start a5, a6, fun s => by rw [← C19_tree_iff_language a2 hty, spells_iff_forest a1 a3 a5]⟩

/-- **C92**, nothing else is skipped: what a parser built from a rule text has read when it accepts a script is a token
sequence of the rules as they are written, with nothing put in but text that the override names stand for, and never inside
a token. -/
theorem C92_only_ignored_added (hcc : SpaceOk cc) {vm : VM I S} (h : RulesText cc (ReadsSection vm) rs text)
    (hP : Parser.newFromText ho0 fuel0 cc vm text = .ok P) (vm' : VM I S') {ho : HashOrder} {fuel : Nat} {script : Str} {s : S'}
    {t : Tree Str} {c : Ctx S'} (hr : Parser.parse ho fuel vm' P script s = (.ok t, c)) :
    ∃ consumed ts, script = consumed ++ c.proc.rest ∧ Tokens rs [⟨c% "start", .nonTerminal⟩] ts ∧
      Sprinkled (IgnoredText rs) ts consumed := by
  obtain ⟨pd, st, h1, h2, h3, h4⟩ := newFromText_language hcc h hP
  obtain ⟨x, hx, hl⟩ := C21_parse_sound h1 h3 h2 vm' hr
  obtain ⟨ts, k1, k2⟩ := ((h4 x).1 hl).sprinkled (put_refl _)
  exact ⟨x, ts, hx, k1, k2⟩

/-- **C92**, optional: if the override names can stand for nothing, then scripts without any ignored text are parsed, and
read completely. -/
theorem C92_plain_scripts (hcc : SpaceOk cc) {vm : VM I S} (h : RulesText cc (ReadsSection vm) rs text)
    (hP : Parser.newFromText ho0 fuel0 cc vm text = .ok P)
    (he : ∀ n j, overrideOf rs n = some j → Spells rs [⟨j, .nonTerminal⟩] []) (vm' : VM I S') (htp : TreePreserving vm')
    (htot : Total vm') {ts : List Str} (ht : Tokens rs [⟨c% "start", .nonTerminal⟩] ts) :
    ∃ N, ∀ fuel, N ≤ fuel → ∀ (ho : HashOrder) (s : S'),
      ∃ t c, Parser.parse ho fuel vm' P ts.flatten s = (.ok t, c) ∧ c.proc.rest = [] := by
  obtain ⟨pd, st, h1, h2, h3, h4⟩ := newFromText_language hcc h hP
  exact C22_parse_complete h1 h3 h2 vm' htp htot ((h4 _).2 (ht.spells he))

/-- **C92**, everywhere: if all names that `start` uses are overridden with `j`, which uses none of them and can stand for
nothing, then between any two neighbouring tokens a script may have any text that `j` stands for: the script is parsed, and
read completely. -/
theorem C92_ignored_between (hcc : SpaceOk cc) {vm : VM I S} (h : RulesText cc (ReadsSection vm) rs text)
    (hP : Parser.newFromText ho0 fuel0 cc vm text = .ok P) {j : Str} {U : Str → Prop} (hU : AllIgnore rs j U)
    (hst : U (c% "start")) (he : Spells rs [⟨j, .nonTerminal⟩] []) (vm' : VM I S') (htp : TreePreserving vm') (htot : Total vm')
    {ts : List Str} (ht : Tokens rs [⟨c% "start", .nonTerminal⟩] ts) {script : Str}
    (hs : Separated (fun x => Spells rs [⟨j, .nonTerminal⟩] x) ts script) :
    ∃ N, ∀ fuel, N ≤ fuel → ∀ (ho : HashOrder) (s : S'),
      ∃ t c, Parser.parse ho fuel vm' P script s = (.ok t, c) ∧ c.proc.rest = [] := by
  obtain ⟨pd, st, h1, h2, h3, h4⟩ := newFromText_language hcc h hP
  refine C22_parse_complete h1 h3 h2 vm' htp htot ((h4 _).2 ?_)
  have := hU.spells he ht (by
    intro n hn
    simp only [List.mem_cons, List.not_mem_nil, or_false, ElementVerbose.mk.injEq, and_true] at hn
    subst hn; exact hst) hs
  simpa [between] using this

/-! ### a concrete case -/

/-- Two rules in which white space is ignored, one of them repeated. -/
def Samples.spacedText : Str := c% "start -> $[IGNORE:w] \"a\" b; b -> $[IGNORE:w] \"b\" \"c\" | #; w -> \" \" w | #;"

def Samples.spacedRules : List (WrittenRule Nat) :=
  [⟨c% "start", some (c% "w"), [[⟨c% "a", .terminal⟩, ⟨c% "b", .nonTerminal⟩]], []⟩,
   ⟨c% "b", some (c% "w"), [[⟨c% "b", .terminal⟩, ⟨c% "c", .terminal⟩], []], []⟩,
   ⟨c% "w", none, [[⟨c% " ", .terminal⟩, ⟨c% "w", .nonTerminal⟩], []], []⟩]

theorem Samples.spacedText_rules : RulesText .ascii (ReadsSection nullVm) Samples.spacedRules Samples.spacedText := by
  have sp : IsSpace [' '] := Samples.isSpace_one (by decide)
  have nw : IsName .ascii (c% "w") := Samples.isName_letter (by decide)
  have nb : IsName .ascii (c% "b") := Samples.isName_letter (by decide)
  have r1 := RuleText.mk (cc := .ascii) (Sec := ReadsSection nullVm) (isName_start .ascii) sp sp (.name isSpace_nil nw) sp
    (.one (.seq (.cons (.terminal (b := c% "a") rfl) sp (by simp) (.one (.name nb))))) isSpace_nil
    (.absent (name := c% "start")) isSpace_nil
  have r2 := RuleText.mk (cc := .ascii) (Sec := ReadsSection nullVm) nb sp sp (.name isSpace_nil nw) sp
    (.cons (.seq (.cons (.terminal (b := c% "b") rfl) sp (by simp) (.one (.terminal (b := c% "c") rfl)))) sp sp (.one .empty))
    isSpace_nil (.absent (name := c% "b")) isSpace_nil
  have r3 := RuleText.mk (cc := .ascii) (Sec := ReadsSection nullVm) nw sp sp .absent isSpace_nil
    (.cons (.seq (.cons (.terminal (b := c% " ") rfl) sp (by simp) (.one (.name nw)))) sp sp (.one .empty))
    isSpace_nil (.absent (name := c% "w")) isSpace_nil
  exact .cons isSpace_nil r1 (.cons sp r2 (.cons sp r3 (.nil isSpace_nil)))

theorem Samples.spaced_w {n m : Str} (h : NameUsesStar Samples.spacedRules n m) (hn : n = c% "w") : m = c% "w" := by
  induction h with
  | refl => exact hn
  | tail _ hl ih =>
    obtain ⟨a, ha, hx⟩ := hl
    subst ih
    have : altsOf Samples.spacedRules (c% "w") = [[⟨c% " ", .terminal⟩, ⟨c% "w", .nonTerminal⟩], []] := by decide
    rw [this] at ha
    simp only [List.mem_cons, List.not_mem_nil, or_false] at ha
    rcases ha with rfl | rfl
    · simpa using hx
    · cases hx

theorem Samples.spaced_empty : Spells Samples.spacedRules [⟨c% "w", .nonTerminal⟩] [] :=
  .name (s := []) (s' := []) (.plain (by decide) (by decide : ([] : List ElementVerbose) ∈ _)) .nil .nil

theorem Samples.spaced_one : Spells Samples.spacedRules [⟨c% "w", .nonTerminal⟩] (c% " ") := by
  have h := Spells.terminal (b := c% " ") Samples.spaced_empty
  have ha : [⟨c% " ", .terminal⟩, ⟨c% "w", .nonTerminal⟩] ∈ altsOf Samples.spacedRules (c% "w") := by decide
  exact .name (s := c% " ") (s' := []) (.plain (by decide) ha) h .nil

theorem Samples.spaced_allIgnore : AllIgnore Samples.spacedRules (c% "w") (fun n => n = c% "start" ∨ n = c% "b") where
  closed := by
    rintro n m (rfl | rfl) ⟨a, ha, hm⟩
    · have : altsOf Samples.spacedRules (c% "start") = [[⟨c% "a", .terminal⟩, ⟨c% "b", .nonTerminal⟩]] := by decide
      rw [this] at ha
      simp only [List.mem_cons, List.not_mem_nil, or_false] at ha
      subst ha
      simp only [List.mem_cons, List.not_mem_nil, or_false, ElementVerbose.mk.injEq, reduceCtorEq, and_false, and_true,
        false_or] at hm
      exact .inr hm
    · have : altsOf Samples.spacedRules (c% "b") = [[⟨c% "b", .terminal⟩, ⟨c% "c", .terminal⟩], []] := by decide
      rw [this] at ha
      simp only [List.mem_cons, List.not_mem_nil, or_false] at ha
      rcases ha with rfl | rfl <;> simp at hm
  override := by rintro n (rfl | rfl) <;> decide
  outside := by
    rintro n (rfl | rfl) h
    · have := Samples.spaced_w h rfl; revert this; decide
    · have := Samples.spaced_w h rfl; revert this; decide

theorem Samples.spaced_tokens : Tokens Samples.spacedRules [⟨c% "start", .nonTerminal⟩] [c% "a", c% "b", c% "c"] := by
  have h1 : [⟨c% "b", .terminal⟩, ⟨c% "c", .terminal⟩] ∈ altsOf Samples.spacedRules (c% "b") := by decide
  have h2 : [⟨c% "a", .terminal⟩, ⟨c% "b", .nonTerminal⟩] ∈ altsOf Samples.spacedRules (c% "start") := by decide
  exact .name (ts := [c% "a", c% "b", c% "c"]) (ts' := []) h2
    (.terminal (.name (ts := [c% "b", c% "c"]) (ts' := []) h1 (.terminal (.terminal .nil)) .nil)) .nil

/-- The hypotheses of the C92 theorems are met: the text gives a parser, which reads `abc`, `a bc` and `a b c`; the latter
is the tokens `a`, `b`, `c` with ignored text between them. -/
example : SpaceOk .ascii ∧
    Separated (fun x => Spells Samples.spacedRules [⟨c% "w", .nonTerminal⟩] x) [c% "a", c% "b", c% "c"] (c% "a b c") ∧
    (∀ n j, overrideOf Samples.spacedRules n = some j → Spells Samples.spacedRules [⟨j, .nonTerminal⟩] []) ∧
    TreePreserving nullVm ∧ Total nullVm ∧
    Samples.runText (Parser.newFromText .insertion 99 .ascii nullVm Samples.spacedText) (c% "a b c") = some [] ∧
    Samples.runText (Parser.newFromText .insertion 99 .ascii nullVm Samples.spacedText) (c% "a bc") = some [] ∧
    Samples.runText (Parser.newFromText .insertion 99 .ascii nullVm Samples.spacedText) (c% "abc") = some [] := by
  refine ⟨Samples.ruleText_reads.1, ?_, ?_, nullVm_treePreserving, nullVm_total, by decide +kernel, by decide +kernel,
    by decide +kernel⟩
  · exact .cons (t := c% "a") (x := c% " ") (s := c% "b c") Samples.spaced_one (by simp)
      (.cons (t := c% "b") (x := c% " ") (s := c% "c") Samples.spaced_one (by simp) (.one _))
  · intro n j hj
    have : j = c% "w" := by
      simp only [overrideOf, Samples.spacedRules, List.filter_cons] at hj
      by_cases h1 : c% "start" = n
      · subst h1; simp at hj; exact hj.symm
      · by_cases h2 : c% "b" = n
        · subst h2; simp at hj; exact hj.symm
        · by_cases h3 : c% "w" = n
          · subst h3; simp at hj
          · simp [h1, h2, h3] at hj
    subst this
    exact Samples.spaced_empty

end HPP
