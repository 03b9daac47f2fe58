import Lean.Elab.Tactic
import Verif.Model.Examples
import Verif.Proofs.CalcStack
import Verif.Props.TextParser
/-
The example grammars as read by the rule parser.
-/
namespace HPP
open Spec CalcShape

/-- Closes `a = b` by `Eq.refl a`, leaving the comparison to the kernel. -/
elab "kernel_rfl" : tactic => do
  let g ← Lean.Elab.Tactic.getMainGoal
  let t ← Lean.instantiateMVars (← g.getType)
  let some (_, a, _) := t.eq? | throwError "not an equation"
  g.assign (← Lean.Meta.mkEqRefl a)

namespace Examples

/-- The elements of the example texts in the order of their first mention. -/
def names : List ElementVerbose :=
  [⟨c% "start", .nonTerminal⟩, ⟨c% "terms", .nonTerminal⟩, ⟨c% "term", .nonTerminal⟩, ⟨c% "terms_s", .nonTerminal⟩,
   ⟨c% "whitespace", .nonTerminal⟩, ⟨c% "add", .nonTerminal⟩, ⟨c% "sub", .nonTerminal⟩, ⟨c% "number", .nonTerminal⟩,
   ⟨c% "print", .nonTerminal⟩, ⟨c% "print", .terminal⟩, ⟨c% "+", .terminal⟩, ⟨c% "-", .terminal⟩,
   ⟨c% "digit", .nonTerminal⟩, ⟨c% "number_s", .nonTerminal⟩, ⟨c% "number_s_", .nonTerminal⟩,
   ⟨c% "0", .terminal⟩, ⟨c% "1", .terminal⟩, ⟨c% "2", .terminal⟩, ⟨c% "3", .terminal⟩, ⟨c% "4", .terminal⟩,
   ⟨c% "5", .terminal⟩, ⟨c% "6", .terminal⟩, ⟨c% "7", .terminal⟩, ⟨c% "8", .terminal⟩, ⟨c% "9", .terminal⟩,
   ⟨c% "whitespaces", .nonTerminal⟩, ⟨c% "whitespaces_s", .nonTerminal⟩, ⟨c% " ", .terminal⟩]

/-- The grammar of the example texts; `ins` are the instructions of the rules. -/
def data {I : Type} (ins : CalcNT → List I) : ParserData I where
  rules :=
    [(0, ⟨[.notEmpty [1]], none, ins .start⟩), (1, ⟨[.notEmpty [2, 3]], none, ins .terms⟩),
     (3, ⟨[.notEmpty [4, 2, 3], .empty], none, ins .termsS⟩),
     (2, ⟨[.notEmpty [5], .notEmpty [6], .notEmpty [7], .notEmpty [8]], none, ins .term⟩),
     (8, ⟨[.notEmpty [9]], none, ins .print⟩), (5, ⟨[.notEmpty [10]], none, ins .add⟩),
     (6, ⟨[.notEmpty [11]], none, ins .sub⟩), (7, ⟨[.notEmpty [12, 13]], none, ins .number⟩),
     (13, ⟨[.notEmpty [14], .empty], none, ins .numberS⟩), (14, ⟨[.notEmpty [12, 13]], none, ins .numberT⟩),
     (12, ⟨[.notEmpty [15], .notEmpty [16], .notEmpty [17], .notEmpty [18], .notEmpty [19], .notEmpty [20],
       .notEmpty [21], .notEmpty [22], .notEmpty [23], .notEmpty [24]], none, ins .digit⟩),
     (25, ⟨[.notEmpty [4, 26]], none, []⟩), (26, ⟨[.notEmpty [4, 26], .empty], none, []⟩),
     (4, ⟨[.notEmpty [27]], none, ins .space⟩)]
  ignore := none
  elementTypes := names.map (·.et)
  verboseMap := names.zipIdx
  elementData := names.map (fun e => ⟨false, e.name⟩)

set_option maxRecDepth 100000 in
theorem simple_text (cc : CharClass) (checked : Bool) :
    (parseRulesLoop cc (simpleStackVm checked) (simpleMathText.length + 1) (RP.new simpleMathText)).2.pd = data calcSIns := by
  kernel_rfl

set_option maxRecDepth 100000 in
theorem simple_text_ok (cc : CharClass) (checked : Bool) :
    (parseRulesLoop cc (simpleStackVm checked) (simpleMathText.length + 1) (RP.new simpleMathText)).1 = .ok () := by
  kernel_rfl

set_option maxRecDepth 100000 in
theorem stack_text (cc : CharClass) (checked : Bool) :
    (parseRulesLoop cc (stackVm cc checked) (mathText.length + 1) (RP.new mathText)).2.pd = data calcIns := by
  kernel_rfl

set_option maxRecDepth 100000 in
theorem stack_text_ok (cc : CharClass) (checked : Bool) :
    (parseRulesLoop cc (stackVm cc checked) (mathText.length + 1) (RP.new mathText)).1 = .ok () := by
  kernel_rfl

/-- The numbers of the rules in the example texts. -/
def ntIx : CalcNT → Nat
  | .start => 0 | .terms => 1 | .term => 2 | .termsS => 3 | .space => 4 | .add => 5 | .sub => 6 | .number => 7
  | .print => 8 | .digit => 12 | .numberS => 13 | .numberT => 14

/-- The numbers of the terminals in the example texts. -/
def tmIx : CalcT → Nat
  | .print => 9 | .plus => 10 | .minus => 11 | .blank => 27 | .digit d => 15 + d.val

theorem dataShape {I : Type} (ins : CalcNT → List I) : ∃ sh : CalcShape (data ins) ins, sh.nt .start = 0 :=
  ⟨{  nt := ntIx
      tm := tmIx
      ntType := by intro x; cases x <;> rfl
      tmType := by
        intro x
        cases x with
        | digit d => match d with | 0 | 1 | 2 | 3 | 4 | 5 | 6 | 7 | 8 | 9 => rfl
        | _ => rfl
      tmName := by
        intro x
        cases x with
        | digit d => match d with | 0 | 1 | 2 | 3 | 4 | 5 | 6 | 7 | 8 | 9 => exact ⟨_, rfl, rfl⟩
        | _ => exact ⟨_, rfl, rfl⟩
      rule := by intro x; cases x <;> exact ⟨_, rfl, rfl, rfl⟩ }, rfl⟩

/-- The numbers of the rules in the grammar built in Rust. -/
def rustNt : CalcNT → Nat
  | .start => 0 | .terms => 1 | .termsS => 2 | .term => 3 | .add => 4 | .sub => 5 | .number => 6 | .print => 7
  | .numberS => 8 | .numberT => 9 | .digit => 10 | .space => 11

/-- The numbers of the terminals in the grammar built in Rust. -/
def rustTm : CalcT → Nat
  | .plus => 14 | .minus => 15 | .print => 16 | .blank => 17 | .digit d => 18 + d.val

theorem rustShape : ∃ sh : CalcShape rustData.1 calcIns, sh.nt .start = 0 :=
  ⟨{  nt := rustNt
      tm := rustTm
      ntType := by intro x; cases x <;> decide +kernel
      tmType := by
        intro x
        cases x with
        | digit d => match d with | 0 | 1 | 2 | 3 | 4 | 5 | 6 | 7 | 8 | 9 => decide +kernel
        | _ => decide +kernel
      tmName := by
        intro x
        cases x with
        | digit d => match d with | 0 | 1 | 2 | 3 | 4 | 5 | 6 | 7 | 8 | 9 => exact ⟨⟨false, _⟩, by kernel_rfl, rfl⟩
        | plus => exact ⟨⟨false, c% "+"⟩, by kernel_rfl, rfl⟩
        | minus => exact ⟨⟨false, c% "-"⟩, by kernel_rfl, rfl⟩
        | print => exact ⟨⟨false, c% "print"⟩, by kernel_rfl, rfl⟩
        | blank => exact ⟨⟨false, c% " "⟩, by kernel_rfl, rfl⟩
      rule := by
        intro x
        refine ⟨⟨(calcAlts x).map (fun a => toProd (a.map (Sum.elim rustNt rustTm))), none, calcIns x⟩, ?_, rfl, rfl⟩
        cases x <;> kernel_rfl }, rfl⟩

end Examples

/-! ### grammar data without overrides is not edited -/

variable {I S : Type}

theorem editRules_plain (ho : HashOrder) {pd : ParserData I} (hw : WellFormed pd)
    (hi : ∀ A r, AMap.get pd.rules A = some r → r.ignore = none) :
    ∃ pd', editRules ho pd = .ok pd' ∧ pd'.elementTypes = pd.elementTypes ∧ pd'.elementData = pd.elementData ∧
      pd'.verboseMap = pd.verboseMap ∧ AMap.NodupKeys pd'.rules ∧ ∀ A, AMap.get pd'.rules A = AMap.get pd.rules A := by
  rcases editRules_spec ho hw (fun A r i h1 h2 => by rw [hi A r h1] at h2; cases h2) with
    ⟨pd', h1, h2, h3, h4, -, h6, h7⟩ | ⟨e, -, A, r, i, B, h1, h2, -⟩
  · refine ⟨pd', h1, h2, h3, h4, h6, fun A => ?_⟩
    rw [h7]
    cases h : AMap.get pd.rules A with
    | none => rfl
    | some r => simp only [Option.map_some, edited, hi A r h]
  · rw [hi A r h1] at h2; cases h2

section
variable {pd pd' : ParserData I} (ht : pd'.elementTypes = pd.elementTypes) (hd : pd'.elementData = pd.elementData)
  (hr : ∀ A, AMap.get pd'.rules A = AMap.get pd.rules A)
include ht hd hr

theorem formOf_congr (es : List Nat) : formOf pd' es = formOf pd es := by
  have : elemForm pd' = elemForm pd := by funext e; simp only [elemForm, ht, hd]
  rw [formOf, formOf, this]

theorem grammarOf_congr : grammarOf pd' = grammarOf pd := by
  funext A w
  simp only [grammarOf, hr, formOf_congr ht hd hr]

theorem wellFormed_congr (hn : AMap.NodupKeys pd'.rules) (hw : WellFormed pd) : WellFormed pd' where
  rulesNodup := hn
  lengths := by rw [ht, hd]; exact hw.lengths
  keysNT := by intro A r h; rw [hr] at h; rw [ht]; exact hw.keysNT A r h
  inRange := by intro A r h; rw [hr] at h; rw [ht]; exact hw.inRange A r h
  nonEmpty := by intro A r h; rw [hr] at h; exact hw.nonEmpty A r h

theorem startSymbol_congr {i : Nat} (hs : StartSymbol pd i) : StartSymbol pd' i := by
  simp only [StartSymbol, ParserData.getElementVerbose, ht, hd] at *; exact hs

theorem acceptable_congr {i : Nat} (h : Acceptable pd i) : Acceptable pd' i where
  startDefined := by rw [hr]; exact h.startDefined
  defined := by
    intro A r h1 p hp e he h2
    rw [hr] at h1 ⊢
    rw [ht] at h2
    exact h.defined A r h1 p hp e he h2
  noLeftRec := by rw [grammarOf_congr ht hd hr]; exact h.noLeftRec
  noEmptyTerminal := by
    intro A r h1 e es he h2 d h3
    rw [hr] at h1; rw [ht] at h2; rw [hd] at h3
    exact h.noEmptyTerminal A r h1 e es he h2 d h3
  disjoint := by
    intro A r h1
    rw [hr] at h1
    have hc : Control pd' i A = Control pd i A := by
      funext p m
      cases p with
      | empty => simp only [Control, grammarOf_congr ht hd hr]
      | notEmpty es => cases es with
        | nil => rfl
        | cons e es => simp only [Control, grammarOf_congr ht hd hr, ht, hd]
    rw [hc]
    exact h.disjoint A r h1

theorem shape_congr {ins : CalcNT → List I} (sh : CalcShape pd ins) : ∃ sh' : CalcShape pd' ins, sh'.nt = sh.nt :=
  ⟨{  nt := sh.nt
      tm := sh.tm
      ntType := by rw [ht]; exact sh.ntType
      tmType := by rw [ht]; exact sh.tmType
      tmName := by rw [hd]; exact sh.tmName
      rule := by intro x; rw [hr]; exact sh.rule x }, rfl⟩
end

/-! ### calculator parsers -/

/-- A parser for the calculator grammar. -/
def IsCalc (ins : CalcNT → List I) (P : Parser I) : Prop :=
  ∃ pd ho0 fuel0 st, WellFormed pd ∧ Parser.newFromParserData ho0 fuel0 pd st = .ok P ∧ StartSymbol pd st ∧
    ∃ sh : CalcShape pd ins, sh.nt .start = st

namespace Examples

theorem data_wf (ins : CalcNT → List I) : WellFormed (data ins) := Samples.wf_of_check rfl

theorem data_start (ins : CalcNT → List I) : StartSymbol (data ins) 0 := Samples.start_of_check rfl

theorem data_noIgnore (ins : CalcNT → List I) (A : Nat) (r : NTRule I) (h : AMap.get (data ins).rules A = some r) :
    r.ignore = none := by
  have h := Samples.mem_of_get' h
  simp only [data, List.mem_cons, List.not_mem_nil, or_false, Prod.mk.injEq] at h
  rcases h with h | h | h | h | h | h | h | h | h | h | h | h | h | h <;> rw [h.2]

/-- Whether a parser is built. -/
def built (x : Res PErr (Parser I)) : Bool :=
  match x with
  | .ok _ => true
  | _ => false

theorem of_built {x : Res PErr (Parser I)} (h : built x = true) : ∃ P, x = .ok P := by
  cases x with
  | ok P => exact ⟨P, rfl⟩
  | _ => cases h

set_option maxRecDepth 100000 in
theorem data_built (ins : CalcNT → List I) : built (Parser.newFromParserData .insertion 99 (data ins) 0) = true := by
  kernel_rfl

theorem data_acceptable (ins : CalcNT → List I) : Acceptable (data ins) 0 := by
  obtain ⟨P, h⟩ := of_built (data_built ins)
  exact (C16_parser_built_iff (data_wf ins) .insertion 0).1 ⟨99, P, h⟩

theorem of_text {vm : VM I S} {ins : CalcNT → List I} {cc : CharClass} {text : Str}
    (h1 : (parseRulesLoop cc vm (text.length + 1) (RP.new text)).1 = .ok ())
    (h2 : (parseRulesLoop cc vm (text.length + 1) (RP.new text)).2.pd = data ins) (ho : HashOrder) :
    ∃ pd, parseRules ho cc vm text = .ok pd ∧ WellFormed pd ∧ StartSymbol pd 0 ∧ Acceptable pd 0 ∧
      pd.getElementNtIndex (c% "start") = some 0 ∧ ∃ sh : CalcShape pd ins, sh.nt .start = 0 := by
  obtain ⟨pd, g1, g2, g3, g4, g5, g6⟩ := editRules_plain ho (data_wf ins) (data_noIgnore ins)
  refine ⟨pd, ?_, wellFormed_congr g2 g3 g6 g5 (data_wf ins), startSymbol_congr g2 g3 g6 (data_start ins),
    acceptable_congr g2 g3 g6 (data_acceptable ins), ?_, ?_⟩
  · unfold parseRules
    rcases hx : parseRulesLoop cc vm (text.length + 1) (RP.new text) with ⟨a, b⟩
    rw [hx] at h1 h2
    simp only at h1 h2
    subst h1
    simp only [h2]
    exact g1
  · simp only [ParserData.getElementNtIndex, g4]
    rfl
  · obtain ⟨sh, hsh⟩ := dataShape ins
    obtain ⟨sh', hsh'⟩ := shape_congr g2 g3 g6 sh
    exact ⟨sh', by rw [hsh', hsh]⟩

theorem text_built {vm : VM I S} {ins : CalcNT → List I} {cc : CharClass} {text : Str}
    (h1 : (parseRulesLoop cc vm (text.length + 1) (RP.new text)).1 = .ok ())
    (h2 : (parseRulesLoop cc vm (text.length + 1) (RP.new text)).2.pd = data ins) (ho : HashOrder) :
    ∃ fuel P, Parser.newFromText ho fuel cc vm text = .ok P := by
  obtain ⟨pd, g1, g2, g3, g4, g5, -⟩ := of_text h1 h2 ho
  obtain ⟨fuel, P, h⟩ := (C16_parser_built_iff g2 ho 0).2 g4
  exact ⟨fuel, P, newFromText_eq g1 g5 h⟩

theorem text_isCalc {vm : VM I S} {ins : CalcNT → List I} {cc : CharClass} {text : Str}
    (h1 : (parseRulesLoop cc vm (text.length + 1) (RP.new text)).1 = .ok ())
    (h2 : (parseRulesLoop cc vm (text.length + 1) (RP.new text)).2.pd = data ins) {ho : HashOrder} {fuel : Nat} {P : Parser I}
    (h : Parser.newFromText ho fuel cc vm text = .ok P) : IsCalc ins P := by
  obtain ⟨pd, g1, g2, g3, g4, g5, g6⟩ := of_text h1 h2 ho
  obtain ⟨pd', st, k1, k2, k3⟩ := newFromText_ok h
  rw [g1] at k1
  cases k1
  rw [g5] at k2
  cases k2
  exact ⟨pd, ho, fuel, 0, g2, k3, g3, g6⟩

theorem rust_wf : WellFormed rustData.1 := Samples.wf_of_check (by decide +kernel)

theorem rust_start : StartSymbol rustData.1 0 := Samples.start_of_check (by decide +kernel)

set_option maxRecDepth 100000 in
theorem rust_built0 : built (Parser.newFromParserData .insertion 99 rustData.1 rustData.2) = true := by
  kernel_rfl

theorem rust_built (ho : HashOrder) : ∃ fuel P, Parser.newFromParserData ho fuel rustData.1 rustData.2 = .ok P := by
  obtain ⟨P, h⟩ := of_built rust_built0
  exact (C16_parser_built_iff rust_wf ho _).2 ((C16_parser_built_iff rust_wf .insertion _).1 ⟨99, P, h⟩)

theorem rust_isCalc {ho : HashOrder} {fuel : Nat} {P : Parser Instr}
    (h : Parser.newFromParserData ho fuel rustData.1 rustData.2 = .ok P) : IsCalc calcIns P :=
  ⟨rustData.1, ho, fuel, 0, rust_wf, h, rust_start, rustShape⟩

end Examples

theorem tokenSteps_append {exec : Option Str → I → S → Option S} {ins : CalcNT → List I} (ts us : List Token) (s : S) :
    tokenSteps exec ins (ts ++ us) s = (tokenSteps exec ins ts s).bind (tokenSteps exec ins us) := by
  induction ts generalizing s with
  | nil => rfl
  | cons t ts ih =>
    simp only [List.cons_append, tokenSteps]
    cases tokenStep exec ins s t with
    | none => rfl
    | some s1 => exact ih s1

/-- What a calculator parser does with a script of words. -/
theorem IsCalc.run {ins : CalcNT → List I} {P : Parser I} (h : IsCalc ins P) (hp : Plain ins) {vm : VM I S}
    (htp : TreePreserving vm) {exec : Option Str → I → S → Option S} (hl : LocalVm vm exec) {toks : List Token}
    (hne : toks ≠ []) (hok : ∀ t ∈ toks, t.Ok) :
    ∃ N, ∀ fuel, N ≤ fuel → ∀ (ho : HashOrder) (s : S),
      (∀ s', tokenSteps exec ins toks s = some s' →
        ∃ t c, Parser.parse ho fuel vm P (scriptText toks) s = (.ok t, c) ∧ c.proc.rest = [] ∧ c.state = s') ∧
      (tokenSteps exec ins toks s = none → (Parser.parse ho fuel vm P (scriptText toks) s).1 = .panic) := by
  obtain ⟨pd, ho0, fuel0, st, h1, h2, h3, sh, rfl⟩ := h
  cases toks with
  | nil => exact absurd rfl hne
  | cons t ts =>
    have := parse_local h1 h2 h3 htp hl (sh.scriptF_forest hok)
    simp only [sh.events_script hp hok] at this
    exact this

/-- A calculator parser accepts only scripts of words. -/
theorem IsCalc.only {ins : CalcNT → List I} {P : Parser I} (h : IsCalc ins P) {vm : VM I S} {ho : HashOrder} {fuel : Nat}
    {text : Str} {s : S} {t : Tree Str} {c : Ctx S} (hp : Parser.parse ho fuel vm P text s = (.ok t, c)) :
    ∃ toks, toks ≠ [] ∧ (∀ t ∈ toks, t.Ok) ∧ text = scriptText toks ++ c.proc.rest := by
  obtain ⟨pd, ho0, fuel0, st, h1, h2, h3, sh, rfl⟩ := h
  obtain ⟨x, rfl, hx⟩ := C21_parse_sound h1 h2 h3 vm hp
  obtain ⟨f, hf⟩ := (C19_tree_iff_language h1 (sh.ntType .start) x).2 hx
  obtain ⟨u, us, h4, -, rfl⟩ := sh.script_inv hf
  exact ⟨u :: us, by simp, h4, rfl⟩

end HPP
