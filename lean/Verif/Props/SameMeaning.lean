import Verif.Proofs.SameMeaning
import Verif.Props.Layout
/-
C90: a rule text is only its meaning: how the alternatives of a name are divided into definitions has no influence on
whether a parser is built nor on what it does.
-/
namespace HPP
open Spec
variable {I S S' : Type} {cc : CharClass} {ρ : Str → Str} {rs rs' : List (WrittenRule I)} {text text' : Str}

/-- In a text from which a parser is built, `start` has a definition. -/
theorem newFromText_start_defined (hcc : SpaceOk cc) {vm : VM I S} (h : RulesText cc (ReadsSection vm) rs text)
    {ho : HashOrder} {fuel : Nat} {P : Parser I} (hP : Parser.newFromText ho fuel cc vm text = .ok P) :
    ∃ r ∈ rs, r.name = c% "start" := by
  obtain ⟨pd, st, a1, a2, a3, a4, a5, a6⟩ := newFromText_means hcc h hP
  obtain ⟨r, hr⟩ := ((C16_parser_built_iff a2 ho st).1 ⟨fuel, P, a6⟩).startDefined
  obtain ⟨n, q, hn, hq⟩ := MeansWoven.rule_name a1 hr
  rw [a5] at hn
  cases hn
  exact ruleMeaning_isDefined hq

theorem Spec.SameMeaning.start_at (hs : SameMeaning ρ rs rs') {st : Nat}
    (h : (elementsOf rs)[st]? = some ⟨c% "start", .nonTerminal⟩) (hd : ∃ r ∈ rs, r.name = c% "start") :
    (elementsOf rs')[renum ρ rs rs' st]? = some ⟨c% "start", .nonTerminal⟩ := by
  have := (renum_at (ρ := ρ) (rs' := rs') h (by rw [renamed_nt]; exact SM2.mem_name hs hd)).2
  rwa [renamed_nt, hs.start] at this

/-- **C90**, construction: of two rule texts with the same meaning, either both give a parser or none does, whatever the
hash orders. -/
theorem C90_built_iff (hcc : SpaceOk cc) (vm : VM I S) (h : RulesText cc (ReadsSection vm) rs text)
    (h' : RulesText cc (ReadsSection vm) rs' text') (hs : SameMeaning ρ rs rs') (ho1 ho2 : HashOrder) :
    (∃ fuel P, Parser.newFromText ho1 fuel cc vm text = .ok P) ↔
    (∃ fuel P, Parser.newFromText ho2 fuel cc vm text' = .ok P) := by
  constructor
  · rintro ⟨fuel, P, hP⟩
    have hd := newFromText_start_defined hcc h hP
    obtain ⟨pd, st, a1, a2, a3, a4, a5, a6⟩ := newFromText_means hcc h hP
    obtain ⟨pd', hpd', b1, b2, b3⟩ := parseRules_means hcc h' ((SM2.ignoresDefined_iff hs).2 a4) ho2
    obtain ⟨fuel', P', hP'⟩ := (C63_built_iff a2 b2 (hs.renumbered a1 b1 a3 b3) ho1 ho2).1 ⟨fuel, P, a6⟩
    exact ⟨fuel', P', newFromText_eq hpd' ((b3.map _ _).2 (hs.start_at a5 hd)) hP'⟩
  · rintro ⟨fuel, P, hP⟩
    have hd' := newFromText_start_defined hcc h' hP
    obtain ⟨pd', st', a1, a2, a3, a4, a5, a6⟩ := newFromText_means hcc h' hP
    obtain ⟨pd, hpd, b1, b2, b3⟩ := parseRules_means hcc h ((SM2.ignoresDefined_iff hs).1 a4) ho1
    have hd := (hs.defined (c% "start")).1 (by rwa [hs.start])
    have hmem : (⟨c% "start", .nonTerminal⟩ : ElementVerbose) ∈ elementsOf rs := by
      obtain ⟨r, hr, hn⟩ := hd
      rw [← hn]; exact mem_elementsOf_name hr
    have hst := getElem?_idxOf hmem
    have heq := a3.inj a5 (hs.start_at hst hd)
    rw [heq] at a6
    obtain ⟨fuel', P', hP'⟩ := (C63_built_iff b2 a2 (hs.renumbered b1 a1 b3 a3) ho1 ho2).2 ⟨fuel, P, a6⟩
    exact ⟨fuel', P', newFromText_eq hpd ((b3.map _ _).2 hst) hP'⟩

/-- **C90**, behaviour: the parsers built from two such texts give, on every script, VM, VM state and call depth, the same
outcome (the same tree; the same error, up to the order of the expected characters; the same panic), leave the same text
unread and the VM in the same state. -/
theorem C90_parse_same (hcc : SpaceOk cc) {vm : VM I S} (h : RulesText cc (ReadsSection vm) rs text)
    (h' : RulesText cc (ReadsSection vm) rs' text') (hs : SameMeaning ρ rs rs') {ho1 ho2 : HashOrder} {fuel1 fuel2 : Nat}
    {P1 P2 : Parser I} (h1 : Parser.newFromText ho1 fuel1 cc vm text = .ok P1)
    (h2 : Parser.newFromText ho2 fuel2 cc vm text' = .ok P2)
    (ho3 ho4 : HashOrder) (fuel : Nat) (vm' : VM I S') (script : Str) (s : S') :
    (Parser.parse ho3 fuel vm' P1 script s).2 = (Parser.parse ho4 fuel vm' P2 script s).2 ∧
    SameRes (Parser.parse ho3 fuel vm' P1 script s).1 (Parser.parse ho4 fuel vm' P2 script s).1 := by
  have hd := newFromText_start_defined hcc h h1
  obtain ⟨pd, st, a1, a2, a3, a4, a5, a6⟩ := newFromText_means hcc h h1
  obtain ⟨pd', st', b1, b2, b3, b4, b5, b6⟩ := newFromText_means hcc h' h2
  have heq := b3.inj b5 (hs.start_at a5 hd)
  rw [heq] at b5 b6
  exact C63_parse_same a2 b2 (hs.renumbered a1 b1 a3 b3) (a3.start a5) (b3.start b5) a6 b6 fuel vm' script s

/-! ### splitting a definition -/

/-- Some of the alternatives of a definition of `n` can be moved to a later definition of `n` of their own, at any place
after it; the override and the instructions written at the new definition do not matter. -/
theorem Spec.SameMeaning.split (pre mid post : List (WrittenRule I)) (n : Str) (ign ign2 : Option Str)
    (alts1 alts2 : List (List ElementVerbose)) (ins ins2 : List I) :
    SameMeaning id (pre ++ ⟨n, ign, alts1 ++ alts2, ins⟩ :: (mid ++ post))
      (pre ++ ⟨n, ign, alts1, ins⟩ :: (mid ++ ⟨n, ign2, alts2, ins2⟩ :: post)) := by
  have hren : (List.map (renamed id)) = (id : List ElementVerbose → _) := by
    funext l
    have : renamed id = (id : ElementVerbose → _) := funext renamed_id
    rw [this]; simp
  refine ⟨fun _ _ h => h, rfl, ?_, fun r' _ => ⟨r'.name, rfl⟩, ?_, ?_, ?_⟩
  · intro m
    simp only [id_eq]
    constructor
    · rintro ⟨r, hr, hn⟩
      simp only [List.mem_append, List.mem_cons] at hr
      rcases hr with hr | rfl | hr | rfl | hr
      · exact ⟨r, by simp [hr], hn⟩
      · exact ⟨⟨n, ign, alts1 ++ alts2, ins⟩, by simp, hn⟩
      · exact ⟨r, by simp [hr], hn⟩
      · exact ⟨⟨n, ign, alts1 ++ alts2, ins⟩, by simp, hn⟩
      · exact ⟨r, by simp [hr], hn⟩
    · rintro ⟨r, hr, hn⟩
      simp only [List.mem_append, List.mem_cons] at hr
      rcases hr with hr | rfl | hr | hr
      · exact ⟨r, by simp [hr], hn⟩
      · exact ⟨⟨n, ign, alts1, ins⟩, by simp, hn⟩
      · exact ⟨r, by simp [hr], hn⟩
      · exact ⟨r, by simp [hr], hn⟩
  · intro m
    rw [hren, List.map_id, id_eq]
    unfold altsOf
    by_cases hm : n = m
    · subst hm
      simp only [List.filter_append, List.filter_cons, decide_true, if_true, List.flatMap_append, List.flatMap_cons,
        List.append_assoc]
      refine List.Perm.append_left _ (List.Perm.append_left _ ?_)
      rw [← List.append_assoc, ← List.append_assoc]
      exact List.Perm.append_right _ List.perm_append_comm
    · simp [List.filter_append, hm]
  · intro m
    simp only [id_eq, Option.map_id_fun]
    unfold overrideOf
    rw [List.filter_append, List.filter_append]
    cases hp : pre.filter (fun r => decide (r.name = m)) with
    | cons a l => rfl
    | nil =>
      by_cases hm : n = m
      · simp [hm]
      · simp [List.filter_append, hm]
  · intro m
    simp only [id_eq]
    unfold instrFor
    rw [List.filter_append, List.filter_append]
    cases hp : pre.filter (fun r => decide (r.name = m)) with
    | cons a l => rfl
    | nil =>
      by_cases hm : n = m
      · simp [hm]
      · simp [List.filter_append, hm]

/-- **C90**, splitting: a text in which some alternatives of a definition were moved to a later definition of the same name
gives a parser iff the original does, and the two parsers behave the same. -/
theorem C90_split (hcc : SpaceOk cc) {vm : VM I S} (pre mid post : List (WrittenRule I)) (n : Str) (ign ign2 : Option Str)
    (alts1 alts2 : List (List ElementVerbose)) (ins ins2 : List I)
    (h : RulesText cc (ReadsSection vm) (pre ++ ⟨n, ign, alts1 ++ alts2, ins⟩ :: (mid ++ post)) text)
    (h' : RulesText cc (ReadsSection vm) (pre ++ ⟨n, ign, alts1, ins⟩ :: (mid ++ ⟨n, ign2, alts2, ins2⟩ :: post)) text')
    (ho1 ho2 : HashOrder) :
    ((∃ fuel P, Parser.newFromText ho1 fuel cc vm text = .ok P) ↔ (∃ fuel P, Parser.newFromText ho2 fuel cc vm text' = .ok P)) ∧
    ∀ fuel1 fuel2 P1 P2, Parser.newFromText ho1 fuel1 cc vm text = .ok P1 →
      Parser.newFromText ho2 fuel2 cc vm text' = .ok P2 → ∀ (ho3 ho4 : HashOrder) (fuel : Nat) (vm' : VM I S) (script : Str) (s : S),
      (Parser.parse ho3 fuel vm' P1 script s).2 = (Parser.parse ho4 fuel vm' P2 script s).2 ∧
      SameRes (Parser.parse ho3 fuel vm' P1 script s).1 (Parser.parse ho4 fuel vm' P2 script s).1 := by
  have hs := SameMeaning.split pre mid post n ign ign2 alts1 alts2 ins ins2
  exact ⟨C90_built_iff hcc vm h h' hs ho1 ho2, fun _ _ _ _ h1 h2 => C90_parse_same hcc h h' hs h1 h2⟩

/-! ### a concrete case -/

/-- `a` of `Samples.textA` in two definitions. -/
def Samples.textSplit : Str := c% "start -> a b; a -> \"x\"; b -> \"z\"; a -> \"y\";"

theorem Samples.textSplit_rules : RulesText .ascii (ReadsSection nullVm)
    ([⟨c% "start", none, [[⟨c% "a", .nonTerminal⟩, ⟨c% "b", .nonTerminal⟩]], []⟩] ++
      ⟨c% "a", none, [[⟨c% "x", .terminal⟩]], []⟩ ::
        ([⟨c% "b", none, [[⟨c% "z", .terminal⟩]], []⟩] ++ ⟨c% "a", none, [[⟨c% "y", .terminal⟩]], []⟩ :: []))
    Samples.textSplit := by
  have sp : IsSpace [' '] := Samples.isSpace_one (by decide)
  have na : IsName .ascii (c% "a") := Samples.isName_letter (by decide)
  have nb : IsName .ascii (c% "b") := Samples.isName_letter (by decide)
  have r1 := RuleText.mk (cc := .ascii) (Sec := ReadsSection nullVm) (isName_start .ascii) sp sp .absent isSpace_nil
    (.one (.seq (.cons (.name na) sp (by simp) (.one (.name nb))))) isSpace_nil (.absent (name := c% "start")) isSpace_nil
  have r2 := RuleText.mk (cc := .ascii) (Sec := ReadsSection nullVm) na sp sp .absent isSpace_nil
    (.one (.seq (.one (.terminal (b := c% "x") rfl)))) isSpace_nil (.absent (name := c% "a")) isSpace_nil
  have r3 := RuleText.mk (cc := .ascii) (Sec := ReadsSection nullVm) nb sp sp .absent isSpace_nil
    (.one (.seq (.one (.terminal (b := c% "z") rfl)))) isSpace_nil (.absent (name := c% "b")) isSpace_nil
  have r4 := RuleText.mk (cc := .ascii) (Sec := ReadsSection nullVm) na sp sp .absent isSpace_nil
    (.one (.seq (.one (.terminal (b := c% "y") rfl)))) isSpace_nil (.absent (name := c% "a")) isSpace_nil
  exact .cons isSpace_nil r1 (.cons sp r2 (.cons sp r3 (.cons sp r4 (.nil isSpace_nil))))

/-- The hypotheses of C90_split are met by the text of `Samples.textA` and the split one; both give a parser, which reads
`yz`. -/
example : RulesText .ascii (ReadsSection nullVm)
      ([⟨c% "start", none, [[⟨c% "a", .nonTerminal⟩, ⟨c% "b", .nonTerminal⟩]], []⟩] ++
        ⟨c% "a", none, [[⟨c% "x", .terminal⟩]] ++ [[⟨c% "y", .terminal⟩]], []⟩ ::
        ([⟨c% "b", none, [[⟨c% "z", .terminal⟩]], []⟩] ++ [])) Samples.textA ∧
    Samples.runText (Parser.newFromText .insertion 99 .ascii nullVm Samples.textA) (c% "yzq") = some (c% "q") ∧
    Samples.runText (Parser.newFromText .insertion 99 .ascii nullVm Samples.textSplit) (c% "yzq") = some (c% "q") :=
  ⟨Samples.textA_rules, by decide +kernel, by decide +kernel⟩

end HPP
