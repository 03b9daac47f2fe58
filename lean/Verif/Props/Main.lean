import Verif.Model.Main
import Verif.Props.TextParser
import Verif.Props.TopDown
/-
C69: the command-line program.
-/
namespace HPP
open Spec

/-- What a text accepted by `parse_rules` gives. -/
theorem parseRules_data {I S : Type} {vm : VM I S} (hvm : OnlyReads vm) {ho : HashOrder} {cc : CharClass} {text : Str}
    {pd : ParserData I} (h : parseRules ho cc vm text = .ok pd) : ∃ rs, RulesText cc (ReadsSectionIn vm) rs text ∧
      MeansWoven rs pd ∧ WellFormed pd ∧ ∀ st, pd.getElementNtIndex (c% "start") = some st → StartSymbol pd st ∧
        ∀ s, Language (grammarOf pd) st s ↔ Spells rs [⟨c% "start", .nonTerminal⟩] s := by
  rcases parseRules_sound hvm ho cc text with ⟨rs, pd0, a1, a2, a3⟩ | ⟨e, a1, -⟩
  · rw [h] at a3
    obtain ⟨b1, b2, b3⟩ := a2.woven a3.symm
    refine ⟨rs, a1, b1, b2, fun st h2 => ?_⟩
    have hst : (elementsOf rs)[st]? = some ⟨c% "start", .nonTerminal⟩ := (b3.map _ _).1 h2
    refine ⟨b3.start hst, fun s => ?_⟩
    have hty : pd.elementTypes[st]? = some .nonTerminal := by rw [b3.types, List.getElem?_map, hst]; rfl
    rw [← C19_tree_iff_language b2 hty, spells_iff_forest b1 b3 hst]
  · rw [h] at a1; cases a1

theorem res_bind_ne_err {ε α β : Type} {x : Res ε α} {f : α → Res ε β} (hx : ∀ e, x ≠ .err e) (hf : ∀ a e, f a ≠ .err e)
    (e : ε) : (x >>= f) ≠ .err e := by
  cases x with
  | ok a => exact hf a e
  | err e' => exact absurd rfl (hx e')
  | panic => simp
  | timeout => simp

theorem unwrap_ne_err {ε ε' α : Type} (x : Res ε α) (e : ε') : (x.unwrap : Res ε' α) ≠ .err e := by
  cases x <;> simp [Res.unwrap]

theorem unwrapO_ne_err {ε α : Type} (x : Option α) (e : ε) : (Res.unwrapO x : Res ε α) ≠ .err e := by
  cases x <;> simp

theorem elementsVerboseFrom_ne_err {ε : Type} (types : List ElementType) (ds : List ElementData) :
    ∀ (ix : Nat) (e : ε), ParserData.elementsVerboseFrom types ix ds ≠ .err e := by
  induction ds with
  | nil => intro ix e; simp [ParserData.elementsVerboseFrom]
  | cons d ds ih =>
    intro ix e
    exact res_bind_ne_err (unwrapO_ne_err _) (fun _ => res_bind_ne_err (ih _) (fun _ _ => by simp)) e

/-- `new_from_text` does not return errors: it panics instead. -/
theorem newFromText_ne_err {I S : Type} {ho : HashOrder} {fuel : Nat} {cc : CharClass} {vm : VM I S} {text : Str} (e : PErr) :
    Parser.newFromText ho fuel cc vm text ≠ .err e := by
  refine res_bind_ne_err (unwrap_ne_err _) (fun pd => res_bind_ne_err (elementsVerboseFrom_ne_err _ _ _) (fun els =>
    res_bind_ne_err (unwrap_ne_err _) (fun fs => res_bind_ne_err (unwrapO_ne_err _) (fun st =>
      res_bind_ne_err (unwrap_ne_err _) (fun fo => res_bind_ne_err (unwrap_ne_err _) (fun m _ => by simp)))))) e

/-- The arguments and files `main` needs. -/
structure CliInput (args : List Str) (readFile : Str → Option Str) (rules script : Str) : Prop where
  rules : ∃ p, args[1]? = some p ∧ readFile p = some rules
  script : ∃ p, args[2]? = some p ∧ readFile p = some script

theorem cliMain_input {ho ho2 : HashOrder} {fuel : Nat} {cc : CharClass} {args : List Str} {readFile : Str → Option Str}
    {rules script : Str} (h : CliInput args readFile rules script) : cliMain ho ho2 fuel cc args readFile =
      ((Parser.newFromText ho fuel cc nullVm rules).bind fun P =>
        (Parser.parse ho2 fuel nullVm P script 0).1.unwrap.bind fun _ => .ok ()) := by
  obtain ⟨⟨p, h1, h2⟩, ⟨q, h3, h4⟩⟩ := h
  simp only [cliMain, h1, h2, h3, h4, Res.unwrapO_some, Res.bind_ok]
  rfl

theorem cliMain_noInput {ho ho2 : HashOrder} {fuel : Nat} {cc : CharClass} {args : List Str} {readFile : Str → Option Str}
    (h : ∀ rules script, ¬ CliInput args readFile rules script) : cliMain ho ho2 fuel cc args readFile = .panic := by
  simp only [cliMain]
  cases h1 : args[1]? with
  | none => rfl
  | some p =>
    cases h2 : args[2]? with
    | none => rfl
    | some q =>
      simp only [Res.unwrapO_some, Res.bind_ok]
      cases h3 : readFile p with
      | none => rfl
      | some rules =>
        cases h4 : readFile q with
        | none => rfl
        | some script => exact absurd ⟨⟨p, h1, h3⟩, ⟨q, h2, h4⟩⟩ (h rules script)

/-- **C69**, wrong usage: with fewer than two arguments, or if a file cannot be read, the program panics. -/
theorem C69_wrong_usage_panics (ho ho2 : HashOrder) (fuel : Nat) (cc : CharClass) (args : List Str)
    (readFile : Str → Option Str)
    (h : args.length < 3 ∨ (∃ p, args[1]? = some p ∧ readFile p = none) ∨ ∃ p, args[2]? = some p ∧ readFile p = none) :
    cliMain ho ho2 fuel cc args readFile = .panic := by
  apply cliMain_noInput
  rintro rules script ⟨⟨p, h1, h2⟩, ⟨q, h3, h4⟩⟩
  rcases h with h | ⟨p', h5, h6⟩ | ⟨q', h5, h6⟩
  · have := (List.getElem?_eq_some_iff.1 h3).1
    omega
  · rw [h1] at h5; cases h5; rw [h2] at h6; cases h6
  · rw [h3] at h5; cases h5; rw [h4] at h6; cases h6

/-- **C69.** The program exits normally exactly if both files can be read, `parse_rules` accepts the first, the grammar
is acceptable from `start`, and the second can be read top-down from `start` (possibly leaving text over), for some
call depth and hash order while parsing. -/
theorem C69_exits_normally_iff (ho : HashOrder) (cc : CharClass) {args : List Str} {readFile : Str → Option Str}
    {rules script : Str} (hin : CliInput args readFile rules script) :
    (∃ fuel ho2, cliMain ho ho2 fuel cc args readFile = .ok ()) ↔
      ∃ pd st, parseRules ho cc nullVm rules = .ok pd ∧ pd.getElementNtIndex (c% "start") = some st ∧
        Acceptable pd st ∧ ∃ f rest, TopDown pd st [st] script f rest := by
  constructor
  · rintro ⟨fuel, ho2, h⟩
    rw [cliMain_input hin] at h
    obtain ⟨P, hP, h⟩ := Res.bind_eq_ok.mp h
    obtain ⟨t, ht, -⟩ := Res.bind_eq_ok.mp h
    rw [Res.unwrap_eq_ok] at ht
    obtain ⟨pd, st, h1, h2, h3⟩ := newFromText_ok hP
    obtain ⟨rs, -, -, hw, hst⟩ := parseRules_data nullVm_onlyReads h1
    obtain ⟨ha, -⟩ := newFromParserData_ok hw h3
    refine ⟨pd, st, h1, h2, ha, ?_⟩
    rcases hx : Parser.parse ho2 fuel nullVm P script 0 with ⟨r, c⟩
    rw [hx] at ht
    simp only at ht
    subst ht
    obtain ⟨f, hf, -⟩ := (C68_accepts_exactly (ho := ho2) (fuel := fuel) hw h3 (hst st h2).1 nullVm nullVm_treePreserving
      nullVm_total script c.proc.rest 0).1 ⟨t, c, hx, rfl⟩
    exact ⟨f, _, hf⟩
  · rintro ⟨pd, st, h1, h2, ha, f, rest, hf⟩
    obtain ⟨rs, -, -, hw, hst⟩ := parseRules_data nullVm_onlyReads h1
    obtain ⟨N, hN⟩ := newFromParserData_succeeds hw ha ho
    obtain ⟨P, hP⟩ := hN (max N f.height) (by omega)
    obtain ⟨t, c, hp, -⟩ := (C68_accepts_exactly (ho := .insertion) (fuel := max N f.height) hw hP (hst st h2).1 nullVm nullVm_treePreserving
      nullVm_total script rest 0).2 ⟨f, hf, by omega⟩
    refine ⟨max N f.height, .insertion, ?_⟩
    rw [cliMain_input hin, newFromText_eq h1 h2 hP]
    simp only [Res.bind, hp, Res.unwrap]

/-- **C69**, the good case for users: if the program exits normally, the script begins with a text spelled by the rules
of the rule file; if the rule file gives a parser and the rules spell the whole script, the program exits normally for
all sufficiently large call depths. -/
theorem C69_scripts (ho : HashOrder) (cc : CharClass) {args : List Str} {readFile : Str → Option Str}
    {rules script : Str} (hin : CliInput args readFile rules script) {fuel0 : Nat} {P : Parser Nat}
    (hP : Parser.newFromText ho fuel0 cc nullVm rules = .ok P) :
    ∃ rs, RulesText cc (ReadsSectionIn nullVm) rs rules ∧
      (∀ fuel ho2, cliMain ho ho2 fuel cc args readFile = .ok () →
        ∃ consumed rest, script = consumed ++ rest ∧ Spells rs [⟨c% "start", .nonTerminal⟩] consumed) ∧
      (Spells rs [⟨c% "start", .nonTerminal⟩] script →
        ∃ N, ∀ fuel, N ≤ fuel → ∀ ho2, cliMain ho ho2 fuel cc args readFile = .ok ()) := by
  obtain ⟨pd, st, h1, h2, h3⟩ := newFromText_ok hP
  obtain ⟨rs, hrs, -, hw, hst⟩ := parseRules_data nullVm_onlyReads h1
  obtain ⟨hs, hl⟩ := hst st h2
  obtain ⟨ha, -⟩ := newFromParserData_ok hw h3
  refine ⟨rs, hrs, ?_, ?_⟩
  · intro fuel ho2 h
    obtain ⟨pd', st', h1', h2', -, f, rest, hf⟩ := (C69_exits_normally_iff ho cc hin).1 ⟨fuel, ho2, h⟩
    rw [h1] at h1'; cases h1'
    rw [h2] at h2'; cases h2'
    obtain ⟨s, e, hs'⟩ := hf.isForest
    refine ⟨s, rest, e, (hl s).1 ((C19_tree_iff_language hw (Spec.StartSymbol.type hs) s).1 ⟨f, hs'⟩)⟩
  · intro hsp
    obtain ⟨N, hN⟩ := newFromParserData_succeeds hw ha ho
    obtain ⟨f, hf⟩ := (C19_tree_iff_language hw (Spec.StartSymbol.type hs) script).2 ((hl script).2 hsp)
    refine ⟨max N f.height, fun fuel hfu ho2 => ?_⟩
    obtain ⟨P', hP'⟩ := hN fuel (by omega)
    obtain ⟨t, c, hp, -⟩ := (C67_depth_is_tree_height (ho := ho2) (fuel := fuel) hw hP' hs nullVm nullVm_treePreserving
      nullVm_total hf 0).1 (by omega)
    rw [cliMain_input hin, newFromText_eq h1 h2 hP']
    simp only [Res.bind, hp, Res.unwrap]

/-- **C69**, no other outcomes: the program exits normally, panics, or exhausts the call depth; further arguments and the
program name do not matter. -/
theorem C69_outcomes (ho ho2 : HashOrder) (fuel : Nat) (cc : CharClass) (args : List Str) (readFile : Str → Option Str) :
    (cliMain ho ho2 fuel cc args readFile = .ok () ∨ cliMain ho ho2 fuel cc args readFile = .panic ∨
      cliMain ho ho2 fuel cc args readFile = .timeout) ∧
    ∀ a b c d more, args = a :: b :: c :: more →
      cliMain ho ho2 fuel cc args readFile = cliMain ho ho2 fuel cc [d, b, c] readFile := by
  constructor
  · by_cases h : ∃ rules script, CliInput args readFile rules script
    · obtain ⟨rules, script, h⟩ := h
      rw [cliMain_input h]
      have hne : ∀ e, Parser.newFromText ho fuel cc nullVm rules ≠ .err e := newFromText_ne_err
      cases hx : Parser.newFromText ho fuel cc nullVm rules with
      | ok P =>
        simp only [Res.bind]
        rcases Parser.parse ho2 fuel nullVm P script 0 with ⟨r, c⟩
        cases r <;> simp [Res.unwrap]
      | err e => exact absurd hx (hne e)
      | panic => simp [Res.bind]
      | timeout => simp [Res.bind]
    · exact .inr (.inl (cliMain_noInput fun r s hi => h ⟨r, s, hi⟩))
  · rintro a b c d more rfl
    rfl

/-- A file system with a rule file and a script. -/
def Samples.files : Str → Option Str := fun p =>
  if p = c% "r" then some Samples.ruleText else if p = c% "s" then some (c% "da\\\"b  ,c") else none

/-- The hypotheses of C69 are met: the sample files, and a run that exits normally; a missing file. -/
example : CliInput [c% "prog", c% "r", c% "s"] Samples.files Samples.ruleText (c% "da\\\"b  ,c") ∧
    cliMain .insertion .insertion 99 .ascii [c% "prog", c% "r", c% "s"] Samples.files = .ok () ∧
    cliMain .insertion .insertion 99 .ascii [c% "prog", c% "r", c% "t"] Samples.files = .panic :=
  ⟨⟨⟨_, rfl, rfl⟩, ⟨_, rfl, rfl⟩⟩, by decide +kernel, by decide +kernel⟩

end HPP
