import Verif.Props.RuleText
/-
Properties C42, C47 and C59: parsers built from rule texts, the `$IGNORE` directive, escaped quotes.
-/
namespace HPP
open Spec
variable {I S : Type}

/-! ### C59 -/

/-- **C59**, connection: a parser built from a text is the parser built from well-formed grammar data that holds what the
text denotes (so that all theorems about `newFromParserData` apply to it), and its language is what the rules spell. -/
theorem C59_text_parser {vm : VM I S} (hvm : OnlyReads vm) {ho0 : HashOrder} {fuel0 : Nat} {cc : CharClass} {text : Str}
    {P : Parser I} (h : Parser.newFromText ho0 fuel0 cc vm text = .ok P) :
    ∃ rs pd st, RulesText cc (ReadsSectionIn vm) rs text ∧ MeansWoven rs pd ∧ WellFormed pd ∧ StartSymbol pd st ∧
      Parser.newFromParserData ho0 fuel0 pd st = .ok P ∧
      ∀ s, Language (grammarOf pd) st s ↔ Spells rs [⟨c% "start", .nonTerminal⟩] s := by
  obtain ⟨pd, st, h1, h2, h3⟩ := newFromText_ok h
  rcases parseRules_sound hvm ho0 cc text with ⟨rs, pd0, a1, a2, a3⟩ | ⟨e, a1, -⟩
  · rw [h1] at a3
    obtain ⟨b1, b2, b3⟩ := a2.woven a3.symm
    have hst : (elementsOf rs)[st]? = some ⟨c% "start", .nonTerminal⟩ := (b3.map _ _).1 h2
    refine ⟨rs, pd, st, a1, b1, b2, b3.start hst, h3, fun s => ?_⟩
    have hty : pd.elementTypes[st]? = some .nonTerminal := by rw [b3.types, List.getElem?_map, hst]; rfl
    rw [← C19_tree_iff_language b2 hty, spells_iff_forest b1 b3 hst]
  · rw [h1] at a1; cases a1

/-- **C59.** A parser built from a rule text accepts every script that the rules spell, reading all of it, and whatever it
accepts begins with a script the rules spell. -/
theorem C59_scripts {vm : VM I S} (hvm : OnlyReads vm) {ho0 : HashOrder} {fuel0 : Nat} {cc : CharClass} {text : Str}
    {P : Parser I} (h : Parser.newFromText ho0 fuel0 cc vm text = .ok P) (htp : TreePreserving vm) (htot : Total vm) :
    ∃ rs, RulesText cc (ReadsSectionIn vm) rs text ∧
      (∀ script, Spells rs [⟨c% "start", .nonTerminal⟩] script → ∃ N, ∀ fuel, N ≤ fuel → ∀ (ho : HashOrder) (s : S),
        ∃ t c, Parser.parse ho fuel vm P script s = (.ok t, c) ∧ c.proc.rest = []) ∧
      (∀ ho fuel script s t c, Parser.parse ho fuel vm P script s = (.ok t, c) →
        ∃ consumed, script = consumed ++ c.proc.rest ∧ Spells rs [⟨c% "start", .nonTerminal⟩] consumed) := by
  obtain ⟨rs, pd, st, h1, h2, h3, h4, h5, h6⟩ := C59_text_parser hvm h
  refine ⟨rs, h1, ?_, ?_⟩
  · intro script hs
    exact C22_parse_complete h3 h5 h4 vm htp htot ((h6 _).2 hs)
  · intro ho fuel script s t c hp
    obtain ⟨x, hx, hl⟩ := C21_parse_sound h3 h5 h4 vm hp
    exact ⟨x, hx, (h6 _).1 hl⟩

/-- **C59**, which texts give a parser: the text is accepted, mentions the name `start`, and the grammar is acceptable. -/
theorem C59_built_iff {vm : VM I S} (hvm : OnlyReads vm) (ho : HashOrder) (cc : CharClass) (text : Str) :
    (∃ fuel P, Parser.newFromText ho fuel cc vm text = .ok P) ↔
    ∃ pd st, parseRules ho cc vm text = .ok pd ∧ pd.getElementNtIndex (c% "start") = some st ∧ Acceptable pd st := by
  have hwf : ∀ {pd}, parseRules ho cc vm text = .ok pd → WellFormed pd := by
    intro pd h1
    rcases parseRules_sound hvm ho cc text with ⟨rs, pd0, a1, a2, a3⟩ | ⟨e, a1, -⟩
    · rw [h1] at a3; exact (a2.woven a3.symm).2.1
    · rw [h1] at a1; cases a1
  constructor
  · rintro ⟨fuel, P, h⟩
    obtain ⟨pd, st, h1, h2, h3⟩ := newFromText_ok h
    exact ⟨pd, st, h1, h2, (C16_parser_built_iff (hwf h1) ho st).1 ⟨fuel, P, h3⟩⟩
  · rintro ⟨pd, st, h1, h2, h3⟩
    obtain ⟨fuel, P, h⟩ := (C16_parser_built_iff (hwf h1) ho st).2 h3
    exact ⟨fuel, P, newFromText_eq h1 h2 h⟩

/-- The text left unread after building a parser and parsing a script with it. -/
def Samples.runText (x : Res PErr (Parser Nat)) (s : Str) : Option Str :=
  match x with
  | .ok P => Samples.okRest (Parser.parse .insertion 99 nullVm P s 0)
  | _ => none

/-- The hypotheses of C59 are met by the sample text; the parser reads a script with blanks in the places the override of
`start` allows. -/
example : Samples.runText (Parser.newFromText .insertion 99 .ascii nullVm Samples.ruleText) (c% "da\\\"b  ,c") = some [] ∧
    OnlyReads nullVm ∧ TreePreserving nullVm ∧ Total nullVm :=
  ⟨by decide +kernel, nullVm_onlyReads, nullVm_treePreserving, nullVm_total⟩

/-! ### C42 -/

theorem rulesLoop_dollar {cc : CharClass} (hcc : SpaceOk cc) {vm : VM I S} {rs' : List (WrittenRule I)} {t : Str}
    (h : RulesText cc (ReadsSection vm) rs' t) (rest : Str) : ∀ (fuel k : Nat) (pd : ParserData I) (rs : List (WrittenRule I)),
    t.length < fuel → MeansOk pd rs →
    ∃ p m s, parseRulesLoop cc vm fuel ⟨Proc.at (t ++ '$' :: rest) k, pd⟩ = (.err (.unexpectedChar '$' p m), s) := by
  induction h with
  | @nil g hg =>
    intro fuel k pd rs hf hm
    obtain ⟨fuel, rfl⟩ : ∃ f, fuel = f + 1 := ⟨fuel - 1, by omega⟩
    rw [rulesLoop_step cc vm hg (by decide)]
    have hv : rpVarName cc ⟨Proc.at ('$' :: rest) (k + g.length), pd⟩ =
        (.err (.unexpectedChar '$' (k + g.length) (c% "alphabetic character")), ⟨Proc.at ('$' :: rest) (k + g.length), pd⟩) := by
      rw [rpVarName, rpProc_eq (plainReader.varName_err cc (c := '$') (w := rest) trivial (k + g.length) (by
        simp [CharClass.isAlphabetic]))]
    exact ⟨_, _, _, by rw [SM.bind_apply, parseRule, SM.bind_apply, hv]⟩
  | @cons r rs' g t t' hg hr hrs ih =>
    intro fuel k pd rs hf hm
    obtain ⟨fuel, rfl⟩ : ∃ f, fuel = f + 1 := ⟨fuel - 1, by omega⟩
    obtain ⟨c, u, rfl, hc⟩ := hr.head
    have hns := alpha_noSpace hcc hc (u ++ t') c (u ++ t') rfl
    obtain ⟨k1, pd1, h1, h2⟩ := parseRule_complete hcc hr (t' ++ '$' :: rest) (k + g.length) hm.ok hm.ignore
    rw [← elementsOf_snoc] at h1
    obtain ⟨p, m, s, h3⟩ := ih fuel k1 _ (rs ++ [r])
      (by simp only [List.length_append, List.length_cons] at hf; omega) (hm.merge h2)
    refine ⟨p, m, s, ?_⟩
    rw [show g ++ (c :: u ++ t') ++ '$' :: rest = g ++ c :: (u ++ (t' ++ '$' :: rest)) by simp, rulesLoop_step cc vm hg hns]
    rw [List.cons_append] at h1
    rw [smBind_ok h1]
    exact h3

/-- **C42 is false**: wherever a `$` stands in place of a rule name, in particular at every directive `$IGNORE: name;`
before, between or after rules, the text is rejected. -/
theorem C42_ignore_directive_refuted {cc : CharClass} (hcc : SpaceOk cc) (vm : VM I S) {rs : List (WrittenRule I)} {t : Str}
    (h : RulesText cc (ReadsSection vm) rs t) (rest : Str) (ho : HashOrder) (name : Str) :
    ∃ p m, parseRules ho cc vm (t ++ (c% "$IGNORE: " ++ name ++ c% ";" ++ rest)) = .err (.unexpectedChar '$' p m) := by
  obtain ⟨p, m, s, h1⟩ := rulesLoop_dollar hcc h (c% "IGNORE: " ++ name ++ c% ";" ++ rest)
    ((t ++ (c% "$IGNORE: " ++ name ++ c% ";" ++ rest)).length + 1) 0 ParserData.new [] (by
      simp only [List.length_append, List.length_cons]; omega) .new
  refine ⟨p, m, ?_⟩
  have h1' : parseRulesLoop cc vm ((t ++ (c% "$IGNORE: " ++ name ++ c% ";" ++ rest)).length + 1)
      (RP.new (t ++ (c% "$IGNORE: " ++ name ++ c% ";" ++ rest))) = (.err (.unexpectedChar '$' p m), s) := h1
  simp only [parseRules, h1']

/-- The hypothesis is met, for instance by the sample text; a directive alone is rejected too. -/
example : (∃ rs, RulesText .ascii (ReadsSection nullVm) rs Samples.ruleText) ∧
    RulesText .ascii (ReadsSection nullVm) [] (c% "\n") := by
  obtain ⟨-, -, rs, pd, -, h, -⟩ := Samples.ruleText_reads
  exact ⟨⟨rs, h⟩, .nil (by intro c hc; simp at hc; subst hc; decide)⟩

/-- **C42**, what works instead: the override `$[IGNORE:j]` of a single rule puts `j` between all neighbours in its
alternatives, unless `j` uses the rule.  Missing: the directive that does it for all following rules. -/
theorem C42_override_partial {cc : CharClass} (hcc : SpaceOk cc) (vm : VM I S) {rs : List (WrittenRule I)} {text : Str}
    (h : RulesText cc (ReadsSection vm) rs text) (hd : IgnoresDefined rs) (ho : HashOrder) {n j : Str}
    (hj : overrideOf rs n = some j) (hu : ¬ NameUsesStar rs j n) :
    ∃ pd i q, parseRules ho cc vm text = .ok pd ∧ pd.getElementIndex ⟨n, .nonTerminal⟩ = some i ∧
      pd.getRuleByKey i = some q ∧
      q.prods = (altsOf rs n).map fun a => altMeaning (elementsOf rs) (between ⟨j, .nonTerminal⟩ a) := by
  obtain ⟨d, ds, hn⟩ : ∃ d ds, rs.filter (fun r => decide (r.name = n)) = d :: ds := by
    cases hf : rs.filter (fun r => decide (r.name = n)) with
    | nil => simp [overrideOf, hf] at hj
    | cons d ds => exact ⟨d, ds, rfl⟩
  have hig : d.ignore = some j := by simpa [overrideOf, hn] using hj
  obtain ⟨pd, i, q, h1, h2, h3, -, -, -, h4⟩ := C45_repeated_rules_merge hcc vm h hd ho hn
  refine ⟨pd, i, q, h1, h2, h3, ?_⟩
  rw [(h4 j hig hu).2, List.map_map]
  have : altsOf rs n = (d :: ds).flatMap WrittenRule.alts := by simp only [altsOf, hn]
  rw [this]
  apply List.map_congr_left
  intro a _
  cases a with
  | nil => rfl
  | cons x xs =>
    have : between ⟨j, .nonTerminal⟩ (x :: xs) ≠ [] := by cases xs <;> simp [between]
    rw [Function.comp, altMeaning_ne (by simp), altMeaning_ne this, between_map]
    rfl

/-! ### C47 -/

/-- The rule text `start -> "b";`. -/
def Samples.quoteText (b : Str) : Str := c% "start -> \"" ++ (b ++ c% "\";")

/-- The rule it consists of. -/
def Samples.quoteRules (b : Str) : List (WrittenRule I) := [⟨c% "start", none, [[⟨b, .terminal⟩]], []⟩]

theorem isName_start (cc : CharClass) : IsName cc (c% "start") := by
  refine ⟨'s', c% "tart", rfl, by simp [CharClass.isAlphabetic], ?_⟩
  intro d hd
  simp only [List.mem_cons, List.not_mem_nil, or_false] at hd
  rcases hd with rfl | rfl | rfl | rfl <;> exact .inl (by simp [CharClass.isAlphanumeric, CharClass.isAlphabetic])

theorem Samples.quote_text (cc : CharClass) (Sec : Str → Str → List I → Prop) {b : Str}
    (hb : quotedFrom false (b ++ ['"']) = some (b, [])) : RulesText cc Sec (Samples.quoteRules b) (Samples.quoteText b) := by
  have hsp : IsSpace [' '] := by intro c hc; simp at hc; subst hc; decide
  have h := RuleText.mk (cc := cc) (Sec := Sec) (isName_start cc) hsp hsp .absent isSpace_nil
    (.one (.seq (.one (.terminal hb)))) isSpace_nil (.absent (name := c% "start")) isSpace_nil
  have h' := RulesText.cons (g := []) isSpace_nil h (.nil (g := []) isSpace_nil)
  have he : Samples.quoteText b = [] ++ ((c% "start" ++ ([' '] ++ (c% "->" ++ ([' '] ++ ([] ++ ([] ++
      ('"' :: (b ++ ['"']) ++ ([] ++ ([] ++ ([] ++ c% ";")))))))))) ++ []) := by
    simp [Samples.quoteText]
  rw [he]; exact h'

theorem Samples.quote_spells (b s : Str) :
    Spells (Samples.quoteRules b : List (WrittenRule I)) [⟨c% "start", .nonTerminal⟩] s ↔ s = b := by
  have ho : overrideOf (Samples.quoteRules b : List (WrittenRule I)) (c% "start") = none := rfl
  have ha : altsOf (Samples.quoteRules b : List (WrittenRule I)) (c% "start") = [[⟨b, .terminal⟩]] := rfl
  constructor
  · intro h
    cases h with
    | name hf h1 h2 =>
      cases h2
      cases hf with
      | plain _ hm =>
        rw [ha] at hm
        simp only [List.mem_cons, List.not_mem_nil, or_false] at hm
        subst hm
        cases h1 with
        | terminal h1 => cases h1; simp
      | own h _ _ => rw [ho] at h; cases h
      | woven h _ _ => rw [ho] at h; cases h
  · rintro rfl
    have := Spells.name (es := []) (s' := []) (.plain ho (by rw [ha]; exact .head _)) (.terminal (b := s) (.nil (I := I))) .nil
    simpa using this

theorem Samples.quote_data {pd : ParserData I} {c : Char} {cs : Str} (h : MeansOk pd (Samples.quoteRules (c :: cs))) :
    Acceptable pd 0 := by
  have hel : elementsOf (Samples.quoteRules (c :: cs) : List (WrittenRule I)) =
      [⟨c% "start", .nonTerminal⟩, ⟨c :: cs, .terminal⟩] := by
    simp [elementsOf, Samples.quoteRules, firstOccurrences, WrittenRule.mentions]
  have hmean : ruleMeaning [⟨c% "start", .nonTerminal⟩, ⟨c :: cs, .terminal⟩] (Samples.quoteRules (I := I) (c :: cs))
      (c% "start") = some ⟨[.notEmpty [1]], none, []⟩ := by
    have hne : ((⟨c% "start", .nonTerminal⟩ : ElementVerbose) == ⟨c :: cs, .terminal⟩) = false := by simp
    simp [ruleMeaning, Samples.quoteRules, altMeaning, productionOf, List.idxOf_cons, hne]
  have hget : ∀ i r, AMap.get pd.rules i = some r → i = 0 ∧ r = ⟨[.notEmpty [1]], none, []⟩ := by
    intro i r hr
    obtain ⟨n, h1, h2⟩ := h.rule_of hr
    have hn : n = c% "start" := by
      obtain ⟨r', hr', hn, -⟩ := (fun hx => hx) (show ∃ r' ∈ Samples.quoteRules (I := I) (c :: cs), r'.name = n ∧ True by
        apply Classical.byContradiction
        intro hno
        rw [ruleMeaning_none (fun r' hr' hn => hno ⟨r', hr', hn, trivial⟩)] at h2
        cases h2)
      simp only [Samples.quoteRules, List.mem_cons, List.not_mem_nil, or_false] at hr'
      subst hr'; exact hn.symm
    subst hn
    rw [hel] at h1 h2
    refine ⟨?_, ?_⟩
    · match i, h1 with
      | 0, _ => rfl
      | 1, h1 => cases h1
    · rw [hmean] at h2
      cases h2
      rfl
  have h0 : AMap.get pd.rules 0 = some ⟨[.notEmpty [1]], none, []⟩ := by
    rw [h.rule_at (n := c% "start") (by rw [hel]; rfl), hel, hmean]
  have hrules : pd.rules = [(0, ⟨[.notEmpty [1]], none, []⟩)] := by
    have hn := h.nodup
    match hl : pd.rules with
    | [] => rw [hl] at h0; cases h0
    | [(i, r)] =>
      have := hget i r (by rw [hl]; simp [AMap.get])
      rw [this.1, this.2]
    | (i, r) :: (j, q) :: rest =>
      exfalso
      have h1 := hget i r (AMap.get_of_mem hn (by rw [hl]; exact .head _))
      have h2 := hget j q (AMap.get_of_mem hn (by rw [hl]; exact .tail _ (.head _)))
      rw [hl] at hn
      simp [AMap.NodupKeys, AMap.keys, h1.1, h2.1] at hn
  have hP : ∃ P, Parser.newFromParserData .insertion 9 pd 0 = .ok P := by
    have ht := h.ok.types
    have hd := h.ok.data
    rw [hel] at ht hd
    obtain ⟨rules, ign, types, vmap, data⟩ := pd
    simp only at ht hd hrules
    subst ht hd hrules
    exact ⟨_, rfl⟩
  obtain ⟨P, hP⟩ := hP
  exact (newFromParserData_ok h.wellFormed hP).1

/-- **C47**, the part that holds: a terminal stands for the characters between its quotes as they are written, backslashes
included: the parser built from `start -> "b";` accepts and reads completely exactly the script `b`.  Missing: backslashes
are not removed. -/
theorem C47_verbatim_partial {vm : VM I S} (htp : TreePreserving vm) (htot : Total vm) {cc : CharClass}
    (hcc : SpaceOk cc) {b : Str} (hb : quotedFrom false (b ++ ['"']) = some (b, [])) (hne : b ≠ []) (ho0 : HashOrder) :
    ∃ fuel P, Parser.newFromText ho0 fuel cc vm (Samples.quoteText b) = .ok P ∧
      (∃ N, ∀ fuel, N ≤ fuel → ∀ (ho : HashOrder) (s : S),
        ∃ t c, Parser.parse ho fuel vm P b s = (.ok t, c) ∧ c.proc.rest = []) ∧
      (∀ ho fuel script s t c, Parser.parse ho fuel vm P script s = (.ok t, c) → script = b ++ c.proc.rest) := by
  obtain ⟨x, xs, rfl⟩ : ∃ x xs, b = x :: xs := by
    cases b with
    | nil => exact absurd rfl hne
    | cons x xs => exact ⟨x, xs, rfl⟩
  have htext := Samples.quote_text cc (ReadsSection vm) hb
  obtain ⟨pd, hm, he⟩ := parseRules_complete hcc htext ho0
  have hig : IgnoresDefined (Samples.quoteRules (I := I) (x :: xs)) := by
    intro n j m h
    simp only [overrideOf, Samples.quoteRules, List.filter_cons] at h
    by_cases hn : c% "start" = n
    · simp [hn] at h
    · simp [hn] at h
  obtain ⟨pd', hp⟩ := hm.edit_ok hig ho0
  rw [hp] at he
  obtain ⟨b1, b2, b3⟩ := hm.woven hp
  -- without overrides the rules stay as they are
  have hsame : MeansOk pd' (Samples.quoteRules (x :: xs)) := by
    rcases editRules_spec ho0 hm.wellFormed hm.ignoresNT with ⟨pd1, h1, h2, h3, h4, h5, h6, h7⟩ | ⟨e, h1, -⟩
    · rw [hp] at h1
      cases h1
      refine ⟨b3, by rw [h5, hm.ignore], h6, fun i => ?_⟩
      rw [h7, ← hm.rules]
      cases hr : AMap.get pd.rules i with
      | none => rfl
      | some r =>
        obtain ⟨n, -, hrm⟩ := hm.rule_of hr
        have hov : overrideOf (Samples.quoteRules (I := I) (x :: xs)) n = none := by
          simp only [overrideOf, Samples.quoteRules, List.filter_cons]
          by_cases hn : c% "start" = n
          · simp [hn]
          · simp [hn]
        have hri : r.ignore = none := by rw [(ruleMeaning_some hrm).2, hov]; rfl
        simp [edited, hri]
    · rw [hp] at h1; cases h1
  have hst : (elementsOf (Samples.quoteRules (I := I) (x :: xs)))[0]? = some ⟨c% "start", .nonTerminal⟩ := by
    simp [elementsOf, Samples.quoteRules, firstOccurrences, WrittenRule.mentions]
  have hidx : pd'.getElementNtIndex (c% "start") = some 0 := (b3.map _ _).2 hst
  obtain ⟨fuel, P, hP⟩ := (C16_parser_built_iff b2 ho0 0).2 (Samples.quote_data hsame)
  have hS := b3.start hst
  have hlang : ∀ s, Language (grammarOf pd') 0 s ↔ s = x :: xs := by
    intro s
    have hty : pd'.elementTypes[0]? = some .nonTerminal := by rw [b3.types, List.getElem?_map, hst]; rfl
    rw [← C19_tree_iff_language b2 hty, spells_iff_forest b1 b3 hst, Samples.quote_spells]
  refine ⟨fuel, P, newFromText_eq he hidx hP, C22_parse_complete b2 hP hS vm htp htot ((hlang _).2 rfl), ?_⟩
  intro ho fuel script s t c hpa
  obtain ⟨y, hy, hl⟩ := C21_parse_sound b2 hP hS vm hpa
  rw [(hlang _).1 hl] at hy
  exact hy

/-- **C47 is false**: the parser built from `start -> "\"";` (an escaped quote) rejects the script `"`. -/
theorem C47_escaped_quote_refuted {vm : VM I S} (htp : TreePreserving vm) (htot : Total vm)
    {cc : CharClass} (hcc : SpaceOk cc) (ho0 : HashOrder) :
    ∃ fuel P, Parser.newFromText ho0 fuel cc vm (c% "start -> \"\\\"\";") = .ok P ∧
      ∀ ho fuel s t c, Parser.parse ho fuel vm P (c% "\"") s ≠ (.ok t, c) := by
  obtain ⟨fuel, P, h1, -, h2⟩ := C47_verbatim_partial htp htot hcc (b := c% "\\\"") (by decide) (by simp) ho0
  refine ⟨fuel, P, h1, fun ho fuel s t c h => ?_⟩
  have := h2 ho fuel _ s t c h
  cases this

/-- The hypotheses are met by a terminal with escaped characters, and by a built-in VM. -/
example : quotedFrom false (c% "a\\\\\"b" ++ ['"']) = some (c% "a\\\\\"b", []) → False := by decide
example : quotedFrom false (c% "a\\\"b\\n" ++ ['"']) = some (c% "a\\\"b\\n", []) ∧ TreePreserving nullVm ∧
    Total nullVm ∧ SpaceOk .ascii :=
  ⟨by decide, nullVm_treePreserving, nullVm_total, ascii_spaceOk⟩

end HPP
