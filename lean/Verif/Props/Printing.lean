import Verif.Proofs.Printing
import Verif.Props.Layout
import Verif.Props.StackText
import Verif.Props.ParserData
/-
C76: rule texts are expressive enough: every grammar that can be built through the programming interface (with names and
terminals that can be written) has a rule text that gives the same parser.
-/
namespace HPP
open Spec
variable {I S S' : Type} {cc : CharClass}

/-- **C76**, rules: the plain text of rules that can be written is read as exactly these rules. -/
theorem C76_read_back (hcc : SpaceOk cc) (vm : VM I S) {sec : Str → List I → Str} {rs : List (WrittenRule I)}
    (h : ∀ r ∈ rs, WritableRule cc (ReadsSection vm) sec r) (hd : IgnoresDefined rs) (ho : HashOrder) :
    ∃ pd, parseRules ho cc vm (showRules sec rs) = .ok pd ∧ MeansWoven rs pd := by
  obtain ⟨pd, h1, h2, -, -⟩ := parseRules_means hcc (showRules_text h) hd ho
  exact ⟨pd, h1, h2⟩

section data
variable {pd : ParserData I} {st : Nat} {vm : VM I S} {sec : Str → List I → Str}

theorem show_read (hcc : SpaceOk cc) (hr : ∀ r ∈ rulesOf pd, WritableRule cc (ReadsSection vm) sec r) (ho : HashOrder) :
    ∃ pd', parseRules ho cc vm (showData sec pd) = .ok pd' ∧ MeansWoven (rulesOf pd) pd' ∧ WellFormed pd' ∧
      InternOk pd' (elementsOf (rulesOf pd)) :=
  parseRules_means hcc (showRules_text hr) ignoresDefined_rulesOf ho

theorem show_start (hw : WellFormed pd) (hd : DistinctElements pd)
    (hst : pd.getElementVerbose st = some ⟨c% "start", .nonTerminal⟩) {q : NTRule I} (hq : AMap.get pd.rules st = some q) :
    (elementsOf (rulesOf pd))[showNumber pd st]? = some ⟨c% "start", .nonTerminal⟩ := by
  obtain ⟨-, h1, h2⟩ := rule_key hw hd hq
  rw [(showNumber_at hw hd h1 h2).2, keyOf_some hst]

/-- **C76**, grammars, construction: grammar data and their text either both give a parser or both do not. -/
theorem C76_built_iff (hcc : SpaceOk cc) (hw : WellFormed pd) (hd : DistinctElements pd)
    (hst : pd.getElementVerbose st = some ⟨c% "start", .nonTerminal⟩)
    (hr : ∀ r ∈ rulesOf pd, WritableRule cc (ReadsSection vm) sec r) (ho1 ho2 : HashOrder) :
    (∃ fuel P, Parser.newFromParserData ho1 fuel pd st = .ok P) ↔
    (∃ fuel P, Parser.newFromText ho2 fuel cc vm (showData sec pd) = .ok P) := by
  obtain ⟨pd', h1, h2, h3, h4⟩ := show_read hcc hr ho2
  have hren := show_renumbered hw hd h2 h4
  constructor
  · rintro ⟨fuel, P, hP⟩
    obtain ⟨q, hq⟩ := ((C16_parser_built_iff hw ho1 st).1 ⟨fuel, P, hP⟩).startDefined
    obtain ⟨fuel', P', hP'⟩ := (C63_built_iff hw h3 hren ho1 ho2).1 ⟨fuel, P, hP⟩
    exact ⟨fuel', P', newFromText_eq h1 ((h4.map _ _).2 (show_start hw hd hst hq)) hP'⟩
  · rintro ⟨fuel, P, hP⟩
    obtain ⟨pd2, st2, a1, a2, a3⟩ := newFromText_ok hP
    rw [h1] at a1; cases a1
    obtain ⟨r', hr'⟩ := ((C16_parser_built_iff h3 ho2 st2).1 ⟨fuel, P, a3⟩).startDefined
    obtain ⟨A, q, rfl, hq⟩ := hren.noMore _ _ hr'
    have a4 := (h4.map _ _).1 a2
    obtain ⟨k1, k2, k3⟩ := rule_key hw hd hq
    rw [(showNumber_at hw hd k2 k3).2] at a4
    have hA := (verbose_of_lt hw.lengths k2).1
    rw [Option.some.inj a4] at hA
    have := hd _ _ _ hA hst
    subst this
    exact (C63_built_iff hw h3 hren ho1 ho2).2 ⟨fuel, P, a3⟩

/-- **C76**, grammars, behaviour: the parser built from the data and the parser built from their text do the same on every
script (same outcome, the expected characters of an error up to order; same unread text; same VM state). -/
theorem C76_parse_same (hcc : SpaceOk cc) (hw : WellFormed pd) (hd : DistinctElements pd)
    (hst : pd.getElementVerbose st = some ⟨c% "start", .nonTerminal⟩)
    (hr : ∀ r ∈ rulesOf pd, WritableRule cc (ReadsSection vm) sec r) {ho1 ho2 : HashOrder} {fuel1 fuel2 : Nat} {P1 P2 : Parser I}
    (h1 : Parser.newFromParserData ho1 fuel1 pd st = .ok P1)
    (h2 : Parser.newFromText ho2 fuel2 cc vm (showData sec pd) = .ok P2)
    (ho3 ho4 : HashOrder) (fuel : Nat) (vm' : VM I S') (script : Str) (s : S') :
    (Parser.parse ho3 fuel vm' P1 script s).2 = (Parser.parse ho4 fuel vm' P2 script s).2 ∧
    SameRes (Parser.parse ho3 fuel vm' P1 script s).1 (Parser.parse ho4 fuel vm' P2 script s).1 := by
  obtain ⟨pd', b1, b2, b3, b4⟩ := show_read hcc hr ho2
  have hren := show_renumbered hw hd b2 b4
  obtain ⟨pd2, st2, a1, a2, a3⟩ := newFromText_ok h2
  rw [b1] at a1; cases a1
  obtain ⟨q, hq⟩ := ((C16_parser_built_iff hw ho1 st).1 ⟨fuel1, P1, h1⟩).startDefined
  have hs := show_start hw hd hst hq
  have heq := b4.inj ((b4.map _ _).1 a2) hs
  subst heq
  exact C63_parse_same hw b3 hren ⟨hst, fun j hj => hd _ _ _ hj hst⟩ (b4.start hs) h1 a3 fuel vm' script s

end data

/-! ### StackVm -/

/-- The section text of StackVm instructions. -/
def stackSection (_ : Str) (is : List Instr) : Str := instrLines (c% " ") is

theorem instrLine_head (i : Instr) (w : Str) : ∀ c v, instrLine i ++ w = c :: v → CharClass.isWhitespace c = false := by
  intro c v h
  cases i <;> simp only [instrLine, List.cons_append, List.cons.injEq] at h <;> obtain ⟨rfl, -⟩ := h <;> decide

/-- **C76** for StackVm: every grammar built by calls of the programming interface, with names and terminals that can be
written, at least one alternative for each rule and constants that fit their types, has a rule text that gives the same
parser. -/
theorem C76_every_grammar_stackVm (hcc : SpaceOk cc) (checked : Bool) (ops : List (BuildOp Instr)) (hv : ValidHistory ops) {st : Nat}
    (hst : (build ops).getElementNtIndex (c% "start") = some st)
    (hel : ∀ e k, (build ops).getElementVerbose e = some k → WritableElem cc k)
    (halt : ∀ A r, (build ops).getRuleByKey A = some r → r.prods ≠ [])
    (hfit : ∀ A r, (build ops).getRuleByKey A = some r → ∀ i ∈ r.instr, ConstFits i) :
    ∃ text, (∀ ho1 ho2 : HashOrder, (∃ fuel P, Parser.newFromParserData ho1 fuel (build ops) st = .ok P) ↔
        ∃ fuel P, Parser.newFromText ho2 fuel cc (stackVm cc checked) text = .ok P) ∧
      ∀ (ho1 ho2 : HashOrder) (fuel1 fuel2 : Nat) (P1 P2 : Parser Instr),
        Parser.newFromParserData ho1 fuel1 (build ops) st = .ok P1 →
        Parser.newFromText ho2 fuel2 cc (stackVm cc checked) text = .ok P2 →
        ∀ (ho3 ho4 : HashOrder) (fuel : Nat) (vm' : VM Instr S') (script : Str) (s : S'),
          (Parser.parse ho3 fuel vm' P1 script s).2 = (Parser.parse ho4 fuel vm' P2 script s).2 ∧
          SameRes (Parser.parse ho3 fuel vm' P1 script s).1 (Parser.parse ho4 fuel vm' P2 script s).1 := by
  have hin := build_intern ops
  obtain ⟨hw, -⟩ := C57_built_data_wellFormed ops hv
  have hd : DistinctElements (build ops) := by
    intro i j k hi hj
    rw [hin.verbose] at hi hj
    exact hin.inj hi hj
  have hst' : (build ops).getElementVerbose st = some ⟨c% "start", .nonTerminal⟩ := by
    rw [hin.verbose]; exact (hin.map _ _).1 hst
  have hr : ∀ r ∈ rulesOf (build ops), WritableRule cc (ReadsSection (stackVm cc checked)) stackSection r := by
    intro r hr
    obtain ⟨A, q, hm, rfl⟩ := mem_rulesOf.1 hr
    have hq := AMap.get_of_mem hw.rulesNodup hm
    obtain ⟨k1, k2, -⟩ := rule_key hw hd hq
    have hk := hel A _ (verbose_of_lt hw.lengths k2).1
    refine ⟨?_, (by intro n hn; cases hn), ?_, ?_, ?_⟩
    · rw [k1] at hk; exact hk
    · simp only [ne_eq, List.map_eq_nil_iff]; exact halt A q hq
    · intro a ha e he
      obtain ⟨p, hp, rfl⟩ := List.mem_map.1 ha
      obtain ⟨x, hx, rfl⟩ := List.mem_map.1 he
      exact hel x _ (verbose_of_lt hw.lengths (hw.inRange A q hq p hp x hx)).1
    · intro hne
      refine ⟨?_, ?_⟩
      · intro rest k
        exact C49_round_trip cc hcc checked _ q.instr (hfit A q hq) [] (c% " ") isSpace_nil isSpace_blank rest k
      · intro c w h
        simp only [stackSection, instrLines] at h hne
        cases hi : q.instr with
        | nil => exact absurd hi hne
        | cons i is =>
          rw [hi, List.flatMap_cons, List.append_assoc] at h
          exact instrLine_head i _ c w h
  exact ⟨showData stackSection (build ops), fun ho1 ho2 => C76_built_iff hcc hw hd hst' hr ho1 ho2,
    fun ho1 ho2 f1 f2 P1 P2 h1 h2 => C76_parse_same hcc hw hd hst' hr h1 h2⟩

/-! ### what cannot be written -/

theorem Spec.ElemText.writable {e : ElementVerbose} {t : Str} (h : ElemText cc e t) : WritableElem cc e := by
  cases h with
  | terminal h => exact h
  | name h => exact h

theorem Spec.SeqText.writable {es : List ElementVerbose} {t : Str} (h : SeqText cc es t) : ∀ e ∈ es, WritableElem cc e := by
  induction h with
  | one h => intro e he; simp only [List.mem_singleton] at he; subst he; exact h.writable
  | cons h _ _ _ ih =>
    intro e he
    rcases List.mem_cons.1 he with rfl | he
    · exact h.writable
    · exact ih e he

theorem Spec.AltText.writable {a : List ElementVerbose} {t : Str} (h : AltText cc a t) : ∀ e ∈ a, WritableElem cc e := by
  cases h with
  | empty => intro e he; cases he
  | seq h => exact h.writable

theorem Spec.AltsText.writable {as : List (List ElementVerbose)} {t : Str} (h : AltsText cc as t) :
    as ≠ [] ∧ ∀ a ∈ as, ∀ e ∈ a, WritableElem cc e := by
  induction h with
  | one h => exact ⟨by simp, fun a ha => by simp only [List.mem_singleton] at ha; subst ha; exact h.writable⟩
  | cons h _ _ _ ih =>
    refine ⟨by simp, fun a ha => ?_⟩
    rcases List.mem_cons.1 ha with rfl | ha
    · exact h.writable
    · exact ih.2 a ha

theorem Spec.RuleText.writable {Sec : Str → Str → List I → Prop} {r : WrittenRule I} {t : Str} (h : RuleText cc Sec r t) :
    r.alts ≠ [] ∧ ∀ e ∈ r.mentions, WritableElem cc e := by
  cases h with
  | @mk n o a s g1 g2 g3 g4 g5 ign alts instr h1 h2 h3 h4 h5 h6 h7 h8 h9 =>
    obtain ⟨k1, k2⟩ := h6.writable
    refine ⟨k1, ?_⟩
    intro e he
    simp only [WrittenRule.mentions, List.mem_cons, List.mem_append, List.mem_flatten] at he
    rcases he with rfl | he | ⟨b, hb, he⟩
    · exact h1
    · cases h4 with
      | absent => cases he
      | off => cases he
      | name _ hn => simp only [Option.map_some, Option.toList_some, List.mem_singleton] at he; subst he; exact hn
      | unknown => cases he
    · exact k2 b hb e he

theorem Spec.RulesText.writable {Sec : Str → Str → List I → Prop} {rs : List (WrittenRule I)} {t : Str} (h : RulesText cc Sec rs t) :
    (∀ r ∈ rs, r.alts ≠ []) ∧ ∀ e ∈ elementsOf rs, WritableElem cc e := by
  have : ∀ r ∈ rs, r.alts ≠ [] ∧ ∀ e ∈ r.mentions, WritableElem cc e := by
    induction h with
    | nil => intro r hr; cases hr
    | cons _ h _ ih =>
      intro r hr
      rcases List.mem_cons.1 hr with rfl | hr
      · exact h.writable
      · exact ih r hr
  refine ⟨fun r hr => (this r hr).1, ?_⟩
  intro e he
  unfold elementsOf at he
  rw [firstOccurrences_mem] at he
  obtain ⟨r, hr, he⟩ := List.mem_flatMap.1 he
  exact (this r hr).2 e he

/-- **C76**, limits: only elements that can be written ever come out of a rule text (so no terminal with a bare quote, no
name with a blank), and every rule has an alternative. -/
theorem C76_limits {vm : VM I S} (hvm : OnlyReads vm) {ho : HashOrder} {text : Str} {pd : ParserData I}
    (h : parseRules ho cc vm text = .ok pd) :
    (∀ e k, pd.getElementVerbose e = some k → WritableElem cc k) ∧ ∀ A r, pd.getRuleByKey A = some r → r.prods ≠ [] := by
  obtain ⟨rs, h1, h2⟩ := C41_only_wellformed hvm h
  obtain ⟨k1, k2⟩ := h1.writable
  refine ⟨?_, ?_⟩
  · intro e k hk
    rw [h2.elements] at hk
    exact k2 k (List.mem_of_getElem? hk)
  · intro A r hr
    have hx : ∃ n, (elementsOf rs)[A]? = some ⟨n, .nonTerminal⟩ := by
      apply Classical.byContradiction
      intro hx
      rw [h2.noName A (fun n hn => hx ⟨n, hn⟩)] at hr; cases hr
    obtain ⟨n, hn⟩ := hx
    cases hq : ruleMeaning (elementsOf rs) rs n with
    | none => rw [h2.undefined A n hn hq] at hr; cases hr
    | some q =>
      have hne : q.prods ≠ [] := by
        unfold ruleMeaning at hq
        split at hq
        · cases hq
        · next d ds hf =>
          cases hq
          have hd : d ∈ rs := by
            have : d ∈ rs.filter (fun r => decide (r.name = n)) := by rw [hf]; exact .head _
            exact (List.mem_filter.1 this).1
          have := k1 d hd
          simp only [List.flatMap_cons, ne_eq, List.append_eq_nil_iff, List.map_eq_nil_iff, not_and]
          exact fun h => absurd h this
      cases ho : overrideOf rs n with
      | none => rw [h2.plain A n q hn hq ho] at hr; cases hr; exact hne
      | some j =>
        by_cases hu : NameUsesStar rs j n
        · rw [h2.own A n q j hn hq ho hu] at hr; cases hr; exact hne
        · rw [h2.woven A n q j hn hq ho hu] at hr; cases hr
          simpa using hne

/-! ### a concrete case -/

/-- A grammar for `[` ... `]` lists of quoted letters, built through the programming interface. -/
def Samples.listOps : List (BuildOp Instr) :=
  [.request ⟨c% "[", .terminal⟩, .request ⟨c% "rest", .nonTerminal⟩, .request ⟨c% "start", .nonTerminal⟩,
    .request ⟨c% "\\\"a\\\"", .terminal⟩, .request ⟨c% "]", .terminal⟩,
    .addProduction 2 [0, 1], .addProduction 1 [3, 1], .addProduction 1 [4], .addInstructions 1 [.printReg, .add]]

/-- It meets the hypotheses, and this is its text. -/
example : ValidHistory Samples.listOps ∧ (build Samples.listOps).getElementNtIndex (c% "start") = some 2 ∧
    (∀ e k, (build Samples.listOps).getElementVerbose e = some k → WritableElem .ascii k) ∧
    (∀ A r, (build Samples.listOps).getRuleByKey A = some r → r.prods ≠ []) ∧
    (∀ A r, (build Samples.listOps).getRuleByKey A = some r → ∀ i ∈ r.instr, ConstFits i) ∧
    showData stackSection (build Samples.listOps) =
      c% "\nstart ->  \"[\" rest ;\nrest ->  \"\\\"a\\\"\" rest | \"]\" {PrintReg; Add; };\n" := by
  refine ⟨ValidFrom.valid ⟨trivial, trivial, trivial, trivial, trivial, ⟨⟨_, rfl⟩, by decide⟩, ⟨⟨_, rfl⟩, by decide⟩,
    ⟨⟨_, rfl⟩, by decide⟩, ⟨_, rfl⟩, trivial⟩, rfl, ?_, ?_, ?_, rfl⟩
  · intro e k h
    match e with
    | 0 | 3 | 4 => cases h; exact rfl
    | 1 => cases h; exact ⟨'r', _, rfl, by decide, by decide⟩
    | 2 => cases h; exact ⟨'s', _, rfl, by decide, by decide⟩
    | e + 5 => cases h
  · intro A r hr
    have := AMap.mem_of_get hr
    have hrules : (build Samples.listOps).rules = [(2, ⟨[.notEmpty [0, 1]], none, []⟩),
      (1, ⟨[.notEmpty [3, 1], .notEmpty [4]], none, [.printReg, .add]⟩)] := rfl
    rw [hrules] at this
    simp only [List.mem_cons, Prod.mk.injEq, List.not_mem_nil, or_false] at this
    rcases this with ⟨-, rfl⟩ | ⟨-, rfl⟩ <;> simp
  · intro A r hr
    have := AMap.mem_of_get hr
    have hrules : (build Samples.listOps).rules = [(2, ⟨[.notEmpty [0, 1]], none, []⟩),
      (1, ⟨[.notEmpty [3, 1], .notEmpty [4]], none, [.printReg, .add]⟩)] := rfl
    rw [hrules] at this
    simp only [List.mem_cons, Prod.mk.injEq, List.not_mem_nil, or_false] at this
    rcases this with ⟨-, rfl⟩ | ⟨-, rfl⟩ <;> simp [ConstFits]

end HPP
