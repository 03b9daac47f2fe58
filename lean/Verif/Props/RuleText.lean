import Verif.Proofs.Woven
import Verif.Proofs.EditErr
import Verif.Props.Sections
import Verif.Props.StackText
import Verif.Props.Parse
/-
Properties C40-C42, C45-C47, C58 and C59: rule texts, their meaning, and parsers built from them.

`RulesText cc Sec rs text` (Spec/RuleText.lean) says that `text` is written according to the rule syntax and that the rules
written are `rs`; `MeansWoven rs pd` and `Spells rs` (Spec/Woven.lean) say what such rules denote.
-/
namespace HPP
open Spec
variable {I S : Type}

theorem Spec.SectionText.mono {Sec Sec' : Str → Str → List I → Prop} {n : Str} (h : ∀ b i, Sec n b i → Sec' n b i)
    {i : List I} {t : Str} (ht : SectionText Sec n i t) : SectionText Sec' n i t := by
  cases ht with
  | absent => exact .absent
  | given h1 h2 h3 => exact .given h1 h2 (h _ _ h3)

theorem Spec.RulesText.mono {cc : CharClass} {Sec Sec' : Str → Str → List I → Prop} (h : ∀ n b i, Sec n b i → Sec' n b i)
    {rs : List (WrittenRule I)} {t : Str} (ht : RulesText cc Sec rs t) : RulesText cc Sec' rs t := by
  induction ht with
  | nil hg => exact .nil hg
  | cons hg hr _ ih =>
    refine .cons hg ?_ ih
    cases hr with
    | mk h1 h2 h3 h4 h5 h6 h7 h8 h9 => exact .mk h1 h2 h3 h4 h5 h6 h7 (h8.mono (h _)) h9

/-! ### C40 -/

/-- **C40.** Every text that follows the rule syntax, with sections the VM accepts and with defined ignore productions, is
accepted, under every hash order, and yields exactly the elements, alternatives, instructions and overrides it denotes. -/
theorem C40_accepts {cc : CharClass} (hcc : SpaceOk cc) (vm : VM I S) {rs : List (WrittenRule I)} {text : Str}
    (h : RulesText cc (ReadsSection vm) rs text) (hd : IgnoresDefined rs) (ho : HashOrder) :
    ∃ pd, parseRules ho cc vm text = .ok pd ∧ MeansWoven rs pd := by
  obtain ⟨pd, hm, he⟩ := parseRules_complete hcc h ho
  obtain ⟨pd', hp⟩ := hm.edit_ok hd ho
  exact ⟨pd', by rw [he, hp], (hm.woven hp).1⟩

/-- **C40** for StackVm, whose section texts are described by `StackSection`. -/
theorem C40_accepts_stackVm {cc : CharClass} (hcc : SpaceOk cc) (checked : Bool) {rs : List (WrittenRule Instr)} {text : Str}
    (h : RulesText cc (fun _ body instr => StackSection cc instr body) rs text) (hd : IgnoresDefined rs) (ho : HashOrder) :
    ∃ pd, parseRules ho cc (stackVm cc checked) text = .ok pd ∧ MeansWoven rs pd :=
  C40_accepts hcc _ (h.mono fun n b i hs => (stackVm_reads hcc checked n b i).2 hs) hd ho

/-- **C40** for SimpleStackVm: the section is any text without an unescaped `}`, the instructions depend on the name. -/
theorem C40_accepts_simpleStackVm {cc : CharClass} (hcc : SpaceOk cc) (checked : Bool) {rs : List (WrittenRule SInstr)}
    {text : Str} (h : RulesText cc (fun name body instr => SimpleMeaning name instr ∧
      sectionOf '}' '\\' (body ++ ['}']) = body) rs text) (hd : IgnoresDefined rs) (ho : HashOrder) :
    ∃ pd, parseRules ho cc (simpleStackVm checked) text = .ok pd ∧ MeansWoven rs pd :=
  C40_accepts hcc _ (h.mono fun n b i hs => (simpleStackVm_reads checked n b i).2 hs) hd ho

/-! ### C41 -/

/-- **C41.** If a rule text is accepted, it follows the syntax, and the data is what it denotes. -/
theorem C41_only_wellformed {vm : VM I S} (hvm : OnlyReads vm) {ho : HashOrder} {cc : CharClass} {text : Str}
    {pd : ParserData I} (h : parseRules ho cc vm text = .ok pd) :
    ∃ rs, RulesText cc (ReadsSectionIn vm) rs text ∧ MeansWoven rs pd := by
  rcases parseRules_sound hvm ho cc text with ⟨rs, pd0, h1, h2, h3⟩ | ⟨e, h1, -⟩
  · rw [h] at h3
    exact ⟨rs, h1, (h2.woven h3.symm).1⟩
  · rw [h] at h1; cases h1

/-- **C41** for StackVm: accepted texts are exactly described by the syntax with `StackSection` sections. -/
theorem C41_only_wellformed_stackVm {cc : CharClass} {checked : Bool} {ho : HashOrder} {text : Str} {pd : ParserData Instr}
    (h : parseRules ho cc (stackVm cc checked) text = .ok pd) :
    ∃ rs, RulesText cc (fun _ body instr => StackSection cc instr body) rs text ∧ MeansWoven rs pd := by
  obtain ⟨rs, h1, h2⟩ := C41_only_wellformed (stackVm_onlyReads cc checked) h
  exact ⟨rs, h1.mono fun n b i hs => stackVm_reads_sound hs, h2⟩

/-- **C41** for SimpleStackVm. -/
theorem C41_only_wellformed_simpleStackVm {cc : CharClass} {checked : Bool} {ho : HashOrder} {text : Str}
    {pd : ParserData SInstr} (h : parseRules ho cc (simpleStackVm checked) text = .ok pd) :
    ∃ rs, RulesText cc (fun name body instr => SimpleMeaning name instr ∧ sectionOf '}' '\\' (body ++ ['}']) = body) rs text ∧
      MeansWoven rs pd := by
  obtain ⟨rs, h1, h2⟩ := C41_only_wellformed (simpleStackVm_onlyReads checked) h
  exact ⟨rs, h1.mono fun n b i hs => (simpleStackVm_reads checked n b i).1 ((simpleStackVm_reads_in checked n b i).1 hs), h2⟩

/-- **C41** for NullVm. -/
theorem C41_only_wellformed_nullVm {cc : CharClass} {ho : HashOrder} {text : Str}
    {pd : ParserData Nat} (h : parseRules ho cc nullVm text = .ok pd) :
    ∃ rs, RulesText cc (fun _ body instr => instr = [0] ∧ sectionOf '}' '\\' (body ++ ['}']) = body) rs text ∧
      MeansWoven rs pd := by
  obtain ⟨rs, h1, h2⟩ := C41_only_wellformed nullVm_onlyReads h
  exact ⟨rs, h1.mono fun n b i hs => (nullVm_reads n b i).1 ((nullVm_reads_in n b i).1 hs), h2⟩

/-- A rule text with overrides, sections, all kinds of alternatives and a repeated rule. -/
def Samples.ruleText : Str := c% " start -> $[IGNORE:ws] item rest { x } ;\nitem->\"a\\\"b\"|\"c\";rest -> \",\" item rest\n | # ;
  ws -> \" \" ws | #; item -> \"d\" item {};"

/-- The names of the elements read. -/
def Samples.showNames {I : Type} (x : Res PErr (ParserData I)) : Option (List Str) :=
  match x with
  | .ok pd => some (pd.elementData.map (·.name))
  | _ => none

/-- The rules read. -/
def Samples.showRules {I : Type} (x : Res PErr (ParserData I)) : Option (List (Nat × List Production × Option Nat × List I)) :=
  match x with
  | .ok pd => some (pd.rules.map fun r => (r.1, r.2.prods, r.2.ignore, r.2.instr))
  | _ => none

/-- The error. -/
def Samples.showErr {I : Type} (x : Res PErr (ParserData I)) : Option PErr :=
  match x with
  | .err e => some e
  | _ => none

theorem Samples.ruleText_names : Samples.showNames (parseRules .insertion .ascii nullVm Samples.ruleText) =
    some [c% "start", c% "ws", c% "item", c% "rest", c% "a\\\"b", c% "c", c% ",", c% " ", c% "d"] := by decide +kernel

theorem Samples.ruleText_rules : Samples.showRules (parseRules .insertion .ascii nullVm Samples.ruleText) =
    some [(0, [.notEmpty [2, 1, 3]], some 1, [0]), (2, [.notEmpty [4], .notEmpty [5], .notEmpty [8, 2]], none, []),
        (3, [.notEmpty [6, 2, 3], .empty], none, []), (1, [.notEmpty [7, 1], .empty], none, [])] := by decide +kernel

theorem Samples.showNames_eq {I : Type} {x : Res PErr (ParserData I)} {v} (h : Samples.showNames x = some v) :
    ∃ pd, x = .ok pd ∧ pd.elementData.map (·.name) = v := by
  cases x with
  | ok pd => exact ⟨pd, rfl, by simpa [Samples.showNames] using h⟩
  | err e => simp [Samples.showNames] at h
  | panic => simp [Samples.showNames] at h
  | timeout => simp [Samples.showNames] at h

theorem Samples.showErr_eq {I : Type} {x : Res PErr (ParserData I)} {e} (h : Samples.showErr x = some e) : x = .err e := by
  cases x with
  | ok pd => simp [Samples.showErr] at h
  | err e => simp [Samples.showErr] at h; rw [h]
  | panic => simp [Samples.showErr] at h
  | timeout => simp [Samples.showErr] at h

/-- The hypotheses of C40 (apart from the definedness of the ignore productions) and C41 are met by that text. -/
theorem Samples.ruleText_reads : SpaceOk .ascii ∧ OnlyReads nullVm ∧
    ∃ rs pd, parseRules .insertion .ascii nullVm Samples.ruleText = .ok pd ∧
      RulesText .ascii (ReadsSection nullVm) rs Samples.ruleText ∧ MeansWoven rs pd := by
  obtain ⟨pd, hpd, -⟩ := Samples.showNames_eq Samples.ruleText_names
  obtain ⟨rs, h1, h2⟩ := C41_only_wellformed nullVm_onlyReads hpd
  exact ⟨ascii_spaceOk, nullVm_onlyReads, rs, pd, hpd, h1.mono fun n b i h => (nullVm_reads_in n b i).1 h, h2⟩

/-- `IgnoresDefined` and its negation are both met. -/
example : IgnoresDefined [⟨c% "start", some (c% "ws"), [[⟨c% "a", .terminal⟩]], ([] : List Nat)⟩,
      ⟨c% "ws", none, [[⟨c% " ", .terminal⟩, ⟨c% "ws", .nonTerminal⟩], []], []⟩] ∧
    ¬ IgnoresDefined [⟨c% "start", some (c% "ws"), [[⟨c% "a", .terminal⟩]], ([] : List Nat)⟩] := by
  constructor
  · intro n j m ho hu
    have hj : j = c% "ws" := by
      simp only [overrideOf, List.filter_cons] at ho
      by_cases h1 : c% "start" = n
      · subst h1; simp at ho; exact ho.symm
      · by_cases h2 : c% "ws" = n
        · subst h2; simp at ho
        · simp [h1, h2] at ho
    subst hj
    have : m = c% "ws" := by
      induction hu with
      | refl => rfl
      | tail _ hl ih =>
        obtain ⟨a, ha, hx⟩ := hl
        subst ih
        have : altsOf [⟨c% "start", some (c% "ws"), [[⟨c% "a", .terminal⟩]], ([] : List Nat)⟩,
          ⟨c% "ws", none, [[⟨c% " ", .terminal⟩, ⟨c% "ws", .nonTerminal⟩], []], []⟩] (c% "ws") =
          [[⟨c% " ", .terminal⟩, ⟨c% "ws", .nonTerminal⟩], []] := by decide
        rw [this] at ha
        simp only [List.mem_cons, List.not_mem_nil, or_false] at ha
        rcases ha with rfl | rfl
        · simpa using hx
        · simp at hx
    subst this
    exact ⟨_, .tail _ (.head _), rfl⟩
  · intro h
    obtain ⟨r, hr, hn⟩ := h (c% "start") (c% "ws") (c% "ws") (by decide) .refl
    simp only [List.mem_cons, List.not_mem_nil, or_false] at hr
    subst hr
    exact absurd hn (by decide)

/-! ### C45 -/

/-- **C45.** If a text defines `n` by the rules `d`, `ds` (in text order), the resulting rule has the instructions of `d`;
its alternatives are those of all definitions in text order, as they are or (if `d` has an override that does not use
`n`) with the overriding element between neighbours. -/
theorem C45_repeated_rules_merge {cc : CharClass} (hcc : SpaceOk cc) (vm : VM I S) {rs : List (WrittenRule I)} {text : Str}
    (h : RulesText cc (ReadsSection vm) rs text) (hd : IgnoresDefined rs) (ho : HashOrder) {n : Str} {d : WrittenRule I}
    {ds : List (WrittenRule I)} (hn : rs.filter (fun r => decide (r.name = n)) = d :: ds) :
    ∃ pd i q, parseRules ho cc vm text = .ok pd ∧ pd.getElementIndex ⟨n, .nonTerminal⟩ = some i ∧
      pd.getRuleByKey i = some q ∧ q.instr = d.instr ∧
      (d.ignore = none → q.ignore = none ∧
        q.prods = ((d :: ds).flatMap WrittenRule.alts).map (altMeaning (elementsOf rs))) ∧
      (∀ j, d.ignore = some j → NameUsesStar rs j n → q.ignore = none ∧
        q.prods = ((d :: ds).flatMap WrittenRule.alts).map (altMeaning (elementsOf rs))) ∧
      (∀ j, d.ignore = some j → ¬ NameUsesStar rs j n → q.ignore = some ((elementsOf rs).idxOf ⟨j, .nonTerminal⟩) ∧
        q.prods = (((d :: ds).flatMap WrittenRule.alts).map (altMeaning (elementsOf rs))).map
          (betweenAlt ((elementsOf rs).idxOf ⟨j, .nonTerminal⟩))) := by
  obtain ⟨pd, h1, h2⟩ := C40_accepts hcc vm h hd ho
  have hov : overrideOf rs n = d.ignore := by simp only [overrideOf, hn]
  have hal : altsOf rs n = (d :: ds).flatMap WrittenRule.alts := by simp only [altsOf, hn]
  have hdm : d ∈ rs := by
    have : d ∈ d :: ds := by simp
    rw [← hn] at this; exact (List.mem_filter.1 this).1
  have hdn : d.name = n := by
    have : d ∈ d :: ds := by simp
    rw [← hn] at this; simpa using (List.mem_filter.1 this).2
  have hmem : (⟨n, .nonTerminal⟩ : ElementVerbose) ∈ elementsOf rs :=
    mem_elementsOf hdm (by simp [WrittenRule.mentions, hdn])
  have hi := getElem?_idxOf hmem
  obtain ⟨r, hr⟩ := ruleMeaning_defined (keys := elementsOf rs) hdm hdn
  have hri : r.instr = d.instr := by
    have := hr
    simp only [ruleMeaning, hn, Option.some.injEq] at this
    rw [← this]
  obtain ⟨hp, hg⟩ := ruleMeaning_some hr
  rw [hal] at hp
  rw [hov] at hg
  cases hig : d.ignore with
  | none =>
    rw [hig] at hov hg
    refine ⟨pd, _, r, h1, (h2.index _ _).2 hi, h2.plain _ n r hi hr hov, hri, ?_, ?_, ?_⟩
    · exact fun _ => ⟨hg, hp⟩
    · intro j hj; cases hj
    · intro j hj; cases hj
  | some j =>
    rw [hig] at hov hg
    by_cases hu : NameUsesStar rs j n
    · refine ⟨pd, _, _, h1, (h2.index _ _).2 hi, h2.own _ n r j hi hr hov hu, hri, ?_, ?_, ?_⟩
      · intro hj; cases hj
      · intro j' hj _; exact ⟨rfl, hp⟩
      · intro j' hj hu'; cases hj; exact absurd hu hu'
    · refine ⟨pd, _, _, h1, (h2.index _ _).2 hi, h2.woven _ n r j hi hr hov hu, hri, ?_, ?_, ?_⟩
      · intro hj; cases hj
      · intro j' hj hu'; cases hj; exact absurd hu' hu
      · intro j' hj _; cases hj; exact ⟨hg, by rw [← hp]⟩

/-- The effect on the sample text: `item` is defined twice (element 2). -/
example : (Samples.showRules (parseRules .insertion .ascii nullVm Samples.ruleText)).bind (fun x => x[1]?) =
    some (2, [.notEmpty [4], .notEmpty [5], .notEmpty [8, 2]], none, []) := by
  rw [Samples.ruleText_rules]; rfl

/-! ### C46 -/

/-- **C46.** Rule parsing returns, with `Ok` or `Err`, for every text, every hash order and every VM that only reads its
section (and returns). -/
theorem C46_returns {vm : VM I S} (hvm : OnlyReads vm) (ho : HashOrder) (cc : CharClass) (text : Str) :
    (∃ pd, parseRules ho cc vm text = .ok pd) ∨ (∃ e, parseRules ho cc vm text = .err e) := by
  rcases parseRules_sound hvm ho cc text with ⟨rs, pd0, h1, h2, h3⟩ | ⟨e, h1, -⟩
  · rcases editRules_spec ho h2.wellFormed h2.ignoresNT with ⟨pd', h4, -⟩ | ⟨e, h4, -⟩
    · exact .inl ⟨pd', by rw [h3, h4]⟩
    · exact .inr ⟨e, by rw [h3, h4]⟩
  · exact .inr ⟨e, h1⟩

/-- All built-in VMs qualify. -/
example : OnlyReads nullVm ∧ OnlyReads (countingVm true) ∧ OnlyReads (simpleStackVm true) ∧ OnlyReads (stackVm .ascii true) :=
  ⟨nullVm_onlyReads, countingVm_onlyReads _, simpleStackVm_onlyReads _, stackVm_onlyReads _ _⟩

/-! ### C58 -/

/-- **C58.** An error of rule parsing points into the text, or was reported by the VM on a section, or says that an ignore
production uses an undefined name although the text follows the syntax. -/
theorem C58_errors {vm : VM I S} (hvm : OnlyReads vm) {ho : HashOrder} {cc : CharClass} {text : Str} {e : PErr}
    (h : parseRules ho cc vm text = .err e) :
    PointsInto text e ∨ FromSection vm text e ∨
      ((∃ i, e = .internal i) ∧ ∃ rs, RulesText cc (ReadsSectionIn vm) rs text ∧ ¬ IgnoresDefined rs) := by
  rcases parseRules_sound hvm ho cc text with ⟨rs, pd0, h1, h2, h3⟩ | ⟨e', h1, h2⟩
  · rw [h] at h3
    rcases editRules_spec ho h2.wellFormed h2.ignoresNT with ⟨pd', h4, -⟩ | ⟨e', h4, h5⟩
    · rw [h4] at h3; cases h3
    · exact .inr (.inr ⟨editRules_err h3.symm, rs, h1, h2.badIgnore h5⟩)
  · rw [h] at h1; cases h1
    rcases h2 with h2 | ⟨u, v, name, rfl, h2⟩
    · exact .inl h2.pointsInto
    · refine .inr (.inl ⟨u, v, name, rfl, ?_⟩)
      rw [Nat.zero_add] at h2; exact h2

/-- The three kinds of errors occur. -/
example : parseRules .insertion .ascii nullVm (c% "start -> \"a\"") = .err (.endOfChars 12) ∧
    parseRules .insertion .ascii nullVm (c% "start -> $[IGNORE:ws] \"a\";") = .err (.internal 1) ∧
    parseRules .insertion .ascii (stackVm .ascii true) (c% "start -> \"a\" {1};") =
      .err (.unexpectedChar '1' 14 (c% "alphabetic character")) := by
  refine ⟨Samples.showErr_eq ?_, Samples.showErr_eq ?_, Samples.showErr_eq ?_⟩ <;> decide +kernel

end HPP
