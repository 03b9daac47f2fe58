import Verif.Props.TextParser
/-
C105: what may stand between rules.
-/
namespace HPP
open Spec
variable {I S : Type}

theorem rulesLoop_between {cc : CharClass} (hcc : SpaceOk cc) {vm : VM I S} (hvm : OnlyReads vm) {c : Char}
    (hsp : CharClass.isWhitespace c = false) (hal : cc.isAlphabetic c = false) {rs' : List (WrittenRule I)} {t : Str}
    (h : RulesText cc (ReadsSection vm) rs' t) (rest : Str) : ∀ (fuel k : Nat) (pd : ParserData I) (rs : List (WrittenRule I)),
    t.length < fuel → MeansOk pd rs →
    ∃ s, parseRulesLoop cc vm fuel ⟨Proc.at (t ++ c :: rest) k, pd⟩ =
      (.err (.unexpectedChar c (k + t.length) (c% "alphabetic character")), s) := by
  induction h with
  | @nil g hg =>
    intro fuel k pd rs hf hm
    obtain ⟨fuel, rfl⟩ : ∃ f, fuel = f + 1 := ⟨fuel - 1, by omega⟩
    rw [rulesLoop_step cc vm hg hsp]
    have hv : rpVarName cc ⟨Proc.at (c :: rest) (k + g.length), pd⟩ =
        (.err (.unexpectedChar c (k + g.length) (c% "alphabetic character")), ⟨Proc.at (c :: rest) (k + g.length), pd⟩) := by
      rw [rpVarName, rpProc_eq (plainReader.varName_err cc (c := c) (w := rest) trivial (k + g.length) hal)]
    exact ⟨_, by rw [SM.bind_apply, parseRule, SM.bind_apply, hv]⟩
  | @cons r rs' g t t' hg hr hrs ih =>
    intro fuel k pd rs hf hm
    obtain ⟨fuel, rfl⟩ : ∃ f, fuel = f + 1 := ⟨fuel - 1, by omega⟩
    obtain ⟨d, u, rfl, hd⟩ := hr.head
    have hns := alpha_noSpace hcc hd (u ++ t') d (u ++ t') rfl
    obtain ⟨k1, pd1, h1, h2⟩ := parseRule_complete hcc hr (t' ++ c :: rest) (k + g.length) hm.ok hm.ignore
    have hk : k1 = k + g.length + (d :: u).length := by
      have hread := reads_rule hvm hm.ok hm.ignore cc (w := (d :: u) ++ (t' ++ c :: rest)) (k := k + g.length)
      rw [h1] at hread
      obtain ⟨u', w', pd', ks, he, hw, -⟩ := hread
      have hp : Proc.at (t' ++ c :: rest) k1 = Proc.at w' (k + g.length + u'.length) := congrArg RP.proc he
      have hw' : t' ++ c :: rest = w' := congrArg (fun p : Proc => p.src.chars) hp
      have hk' : k1 = k + g.length + u'.length := congrArg PP.pos hp
      subst hw'
      rw [hk', List.append_cancel_right hw]
    rw [← elementsOf_snoc] at h1
    obtain ⟨s, h3⟩ := ih fuel k1 _ (rs ++ [r])
      (by simp only [List.length_append, List.length_cons] at hf; omega) (hm.merge h2)
    refine ⟨s, ?_⟩
    rw [show g ++ (d :: u ++ t') ++ c :: rest = g ++ d :: (u ++ (t' ++ c :: rest)) by simp, rulesLoop_step cc vm hg hns]
    rw [List.cons_append] at h1
    rw [smBind_ok h1]
    rw [show k + (g ++ (d :: u ++ t')).length = k1 + t'.length by rw [hk]; simp only [List.length_append]; omega]
    exact h3

/-- **C105**: between rules, before the first and after the last, only white space may stand: wherever, after any number
of rules, the first character that is not white space cannot begin a rule name, the text is rejected, and the error names
that character and its place. -/
theorem C105_between_rules {cc : CharClass} (hcc : SpaceOk cc) {vm : VM I S} (hvm : OnlyReads vm) {rs : List (WrittenRule I)}
    {t : Str} (h : RulesText cc (ReadsSection vm) rs t) {c : Char} (hsp : CharClass.isWhitespace c = false)
    (hal : cc.isAlphabetic c = false) (rest : Str) (ho : HashOrder) :
    parseRules ho cc vm (t ++ c :: rest) = .err (.unexpectedChar c t.length (c% "alphabetic character")) := by
  obtain ⟨s, h1⟩ := rulesLoop_between hcc hvm hsp hal h rest ((t ++ c :: rest).length + 1) 0 ParserData.new []
    (by simp only [List.length_append, List.length_cons]; omega) .new
  rw [Nat.zero_add] at h1
  have h1' : parseRulesLoop cc vm ((t ++ c :: rest).length + 1) (RP.new (t ++ c :: rest)) =
      (.err (.unexpectedChar c t.length (c% "alphabetic character")), s) := h1
  simp only [parseRules, h1']

/-- **C105**, comments: a comment `// …` before, between or after rules is rejected at its first slash. -/
theorem C105_no_comments {cc : CharClass} (hcc : SpaceOk cc) (ha : cc.isAlphabetic '/' = false) {vm : VM I S} (hvm : OnlyReads vm)
    {rs : List (WrittenRule I)} {t : Str} (h : RulesText cc (ReadsSection vm) rs t) (rest : Str) (ho : HashOrder) :
    parseRules ho cc vm (t ++ (c% "//" ++ rest)) = .err (.unexpectedChar '/' t.length (c% "alphabetic character")) :=
  C105_between_rules hcc hvm h (by decide) ha ('/' :: rest) ho

/-- The hypotheses are met by the sample text, in front of a comment. -/
example (ho : HashOrder) : parseRules ho .ascii nullVm (Samples.ruleText ++ (c% "//" ++ c% " the end")) =
    .err (.unexpectedChar '/' Samples.ruleText.length (c% "alphabetic character")) := by
  obtain ⟨h1, h2, rs, pd, -, h, -⟩ := Samples.ruleText_reads
  exact C105_no_comments ascii_spaceOk (by decide) (by assumption) h _ ho

end HPP
