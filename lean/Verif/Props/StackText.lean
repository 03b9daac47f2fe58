import Verif.Props.Sections
/-
C49, C50: the instruction text of StackVm.
-/
namespace HPP
open Spec

namespace Spec

/-- The constants of the instruction fit their machine types (`isize`, for `Pow` `usize`). -/
def ConstFits : Instr → Prop
  | .regAddConst c => -2 ^ 63 ≤ c ∧ c < 2 ^ 63
  | .pushConst c => -2 ^ 63 ≤ c ∧ c < 2 ^ 63
  | .pow b => b < 2 ^ 64
  | _ => True

/-- The constants of the instruction are not negative. -/
def ConstNonneg : Instr → Prop
  | .regAddConst c => 0 ≤ c
  | .pushConst c => 0 ≤ c
  | _ => True

/-- A constant in text: a number from 0 on in decimal; a negative one as the decimal number with the same bit pattern
(there is no other way to write it). -/
def constText (c : Int) : Str := if 0 ≤ c then numeral c.toNat else numeral (c + 2 ^ 64).toNat

/-- An instruction in text. -/
def instrLine : Instr → Str
  | .add => c% "Add;"
  | .sub => c% "Sub;"
  | .digit => c% "Digit;"
  | .popToReg => c% "PopToReg;"
  | .popToReg2 => c% "PopToReg2;"
  | .popDiscard => c% "PopDiscard;"
  | .pushFromTree => c% "PushFromTree;"
  | .pushReg => c% "PushReg;"
  | .pushReg2 => c% "PushReg2;"
  | .printReg => c% "PrintReg;"
  | .printReg2 => c% "PrintReg2;"
  | .printError => c% "PrintError;"
  | .regAddConst c => c% "RegAddConst " ++ (constText c ++ c% ";")
  | .pushConst c => c% "PushConst " ++ (constText c ++ c% ";")
  | .pow b => c% "Pow " ++ (numeral b ++ c% ";")

/-- A list of instructions in text, `sep` following each of them. -/
def instrLines (sep : Str) (is : List Instr) : Str := is.flatMap fun i => instrLine i ++ sep

end Spec

theorem constText_spec {c : Int} (h : -2 ^ 63 ≤ c ∧ c < 2 ^ 63) : constText c ≠ [] ∧ (∀ d ∈ constText c, IsDigit d) ∧
    decimalValue (constText c) < 2 ^ 64 ∧ asSigned (decimalValue (constText c)) = c := by
  unfold constText
  split
  · obtain ⟨h1, h2, h3⟩ := numeral_spec c.toNat
    refine ⟨h1, h2, ?_, ?_⟩
    · rw [h3]; omega
    · rw [h3, asSigned, if_pos (by omega)]; omega
  · obtain ⟨h1, h2, h3⟩ := numeral_spec (c + 2 ^ 64).toNat
    refine ⟨h1, h2, ?_, ?_⟩
    · rw [h3]; omega
    · rw [h3, asSigned, if_neg (by omega)]; omega

theorem ascii_spaceOk : SpaceOk CharClass.ascii := by
  intro c hc
  simp only [CharClass.isWhitespace, decide_eq_true_eq] at hc
  simp only [CharClass.isAlphanumeric, CharClass.isAlphabetic, CharClass.isNumeric, CharClass.isAsciiDigit, CharClass.ascii,
    Bool.or_eq_false_iff, beq_eq_false_iff_ne, ne_eq]
  refine ⟨⟨?_, ?_⟩, ?_⟩
  · split
    · simp only [decide_eq_false_iff_not]; omega
    · rfl
  · split
    · simp only [decide_eq_false_iff_not]; omega
    · rfl
  · rintro rfl
    revert hc
    decide

theorem isSpace_blank : IsSpace (c% " ") := by intro c hc; simp at hc; subst hc; decide

theorem instrLine_text (cc : CharClass) {i : Instr} (h : ConstFits i) : InstrText cc [i] (instrLine i) := by
  cases i with
  | regAddConst c =>
    obtain ⟨h1, h2, h3, h4⟩ := constText_spec h
    have := InstrText.const (cc := cc) (n := c% "RegAddConst") (mk := fun v => .regAddConst (asSigned v)) (by simp [constTable])
      isSpace_blank (by simp) h1 h2 h3
    rw [h4] at this
    exact this
  | pushConst c =>
    obtain ⟨h1, h2, h3, h4⟩ := constText_spec h
    have := InstrText.const (cc := cc) (n := c% "PushConst") (mk := fun v => .pushConst (asSigned v)) (by simp [constTable])
      isSpace_blank (by simp) h1 h2 h3
    rw [h4] at this
    exact this
  | pow b =>
    obtain ⟨h1, h2, h3⟩ := numeral_spec b
    have := InstrText.const (cc := cc) (n := c% "Pow") (mk := fun v => .pow v) (by simp [constTable])
      isSpace_blank (by simp) h1 h2 (by rw [h3]; exact h)
    rw [h3] at this
    exact this
  | add => exact InstrText.plain (n := c% "Add") (by simp [plainTable])
  | sub => exact InstrText.plain (n := c% "Sub") (by simp [plainTable])
  | digit => exact InstrText.plain (n := c% "Digit") (by simp [plainTable])
  | popToReg => exact InstrText.plain (n := c% "PopToReg") (by simp [plainTable])
  | popToReg2 => exact InstrText.plain (n := c% "PopToReg2") (by simp [plainTable])
  | popDiscard => exact InstrText.plain (n := c% "PopDiscard") (by simp [plainTable])
  | pushFromTree => exact InstrText.plain (n := c% "PushFromTree") (by simp [plainTable])
  | pushReg => exact InstrText.plain (n := c% "PushReg") (by simp [plainTable])
  | pushReg2 => exact InstrText.plain (n := c% "PushReg2") (by simp [plainTable])
  | printReg => exact InstrText.plain (n := c% "PrintReg") (by simp [plainTable])
  | printReg2 => exact InstrText.plain (n := c% "PrintReg2") (by simp [plainTable])
  | printError => exact InstrText.plain (n := c% "PrintError") (by simp [plainTable])

/-- **C49.** Every list of StackVm instructions whose constants fit their types, written one after the other with any
white space between them, is parsed back to the same list, wherever the section stands. -/
theorem C49_round_trip (cc : CharClass) (hcc : SpaceOk cc) (checked : Bool) (name : Str) (is : List Instr) (his : ∀ i ∈ is, ConstFits i)
    (g sep : Str) (hg : IsSpace g) (hsep : IsSpace sep) (rest : Str) (k : Nat) :
    ∃ p, (stackVm cc checked).parseInstructions name (sectionProcess (g ++ instrLines sep is ++ '}' :: rest) k) = (.ok is, p) ∧
      p.src = Proc.at ('}' :: rest) (k + (g ++ instrLines sep is).length) := by
  have hs : InstrsText cc is (instrLines sep is) := by
    induction is with
    | nil => exact .nil
    | cons i is ih =>
      have := InstrsText.cons (instrLine_text cc (his i (by simp))) hsep (ih fun j hj => his j (by simp [hj]))
      simpa [instrLines] using this
  exact (stackVm_reads hcc checked name (g ++ instrLines sep is) is).2 ⟨g, _, rfl, hg, hs⟩ rest k

/-- **C49**, in plain decimals: the text of a constant that is not negative is its decimal numeral. -/
theorem C49_plain_decimal (c : Int) (h : 0 ≤ c) : constText c = numeral c.toNat := if_pos h

/-- The section of the rule `number_s_` of the calculator. -/
example : instrLines (c% " ") [.popToReg, .popToReg2, .popDiscard, .pow 10, .regAddConst 1, .pushReg] =
    c% "PopToReg; PopToReg2; PopDiscard; Pow 10; RegAddConst 1; PushReg; " ∧
    (∀ i ∈ [Instr.popToReg, .popToReg2, .popDiscard, .pow 10, .regAddConst 1, .pushReg], ConstFits i) ∧
    SpaceOk CharClass.ascii := by
  have n1 : numeral 1 = c% "1" := by rw [numeral, if_pos (by decide)]; rfl
  have n10 : numeral 10 = c% "10" := by rw [numeral, if_neg (by decide)]; show numeral 1 ++ _ = _; rw [n1]; rfl
  have c1 : constText 1 = c% "1" := by rw [constText, if_pos (by decide)]; exact n1
  refine ⟨by simp [instrLines, instrLine, c1, n10], ?_, ascii_spaceOk⟩
  intro i hi
  simp only [List.mem_cons, List.not_mem_nil, or_false] at hi
  rcases hi with rfl | rfl | rfl | rfl | rfl | rfl <;> simp [ConstFits]

/-! ### C50 -/

/-- **C50 is false**: the section `Foo;` is accepted (and means nothing), and the constant `9223372036854775808`, which
is no `isize`, is accepted as a negative number. -/
theorem C50_refuted :
    (∃ p, (stackVm .ascii true).parseInstructions (c% "start") (sectionProcess (c% "Foo;}") 0) = (.ok [], p) ∧
      p.src = Proc.at (c% "}") 4) ∧
    (∃ p, (stackVm .ascii true).parseInstructions (c% "start") (sectionProcess (c% "PushConst 9223372036854775808;}") 0) =
      (.ok [.pushConst (-9223372036854775808)], p)) :=
  ⟨by
    have h := InstrText.unknown (cc := .ascii) (n := c% "Foo") (name_of_chars ⟨by simp, by decide, by
      intro c r h; injection h with h _; subst h; decide⟩) (by simp [plainTable]) (by simp [constTable])
    have h' : StackSection .ascii [] (c% "Foo;") := ⟨[], _, rfl, isSpace_nil, .cons h isSpace_nil .nil⟩
    exact (stackVm_reads ascii_spaceOk true (c% "start") _ _).2 h' [] 0, by
    have hv : asSigned (decimalValue (c% "9223372036854775808")) = -9223372036854775808 := by decide +kernel
    have h := InstrText.const (cc := .ascii) (n := c% "PushConst") (mk := fun v => .pushConst (asSigned v)) (.tail _ (.head _))
      isSpace_blank (by simp) (ds := c% "9223372036854775808") (by simp) (by decide) (by decide +kernel)
    rw [hv] at h
    have h' : StackSection .ascii [.pushConst (-9223372036854775808)] (c% "PushConst 9223372036854775808;") :=
      ⟨[], _, rfl, isSpace_nil, .cons h isSpace_nil .nil⟩
    obtain ⟨p, h1, -⟩ := (stackVm_reads ascii_spaceOk true (c% "start") _ _).2 h' [] 0
    exact ⟨p, h1⟩⟩

/-- **C50**, what does hold: a section is accepted exactly if it is a sequence of instruction names, each with its
constant (below `2 ^ 64`, at least one digit) if it needs one, and a semicolon; the only leniency is that a name which
is no instruction is skipped (if it has no operand).  Everything else is rejected with an error. -/
theorem C50_accepts_exactly_partial (cc : CharClass) (hcc : SpaceOk cc) (checked : Bool) (name body rest : Str) (k : Nat)
    (hb : '}' ∉ body) :
    (∀ is, StackSection cc is body →
      ∃ p, (stackVm cc checked).parseInstructions name (sectionProcess (body ++ '}' :: rest) k) = (.ok is, p) ∧
        p.src = Proc.at ('}' :: rest) (k + body.length)) ∧
    ((¬ ∃ is, StackSection cc is body) →
      ∃ e p, (stackVm cc checked).parseInstructions name (sectionProcess (body ++ '}' :: rest) k) = (.err e, p)) := by
  constructor
  · intro is h
    exact (stackVm_reads hcc checked name body is).2 h rest k
  · intro hno
    obtain ⟨u, w', h1, -, h3⟩ := stackParse_sound cc body ('}' :: rest) hb (.inr ⟨rest, rfl⟩) k
    rcases h3 with ⟨is, -, rfl, hs⟩ | ⟨e, he, -⟩
    · rw [List.append_nil] at h1
      subst h1
      exact absurd ⟨is, hs⟩ hno
    · exact ⟨e, (stackParse cc (sectionProcess (body ++ '}' :: rest) k)).2, by
        show stackParse cc _ = _
        rw [← he]⟩

/-- **C50**, whatever follows the opening brace: the text up to the first `}` decides, even if a backslash stands before that brace,
and also if no brace follows.  If it is a section, its instructions are returned and reading stops there; otherwise the text is rejected
with an error. -/
theorem C50_any_text_partial (cc : CharClass) (hcc : SpaceOk cc) (checked : Bool) (name w : Str) (k : Nat) :
    (∀ is, StackSection cc is (w.takeWhile (fun c => c ≠ '}')) →
      ∃ p, (stackVm cc checked).parseInstructions name (sectionProcess w k) = (.ok is, p) ∧
        p.src = Proc.at (w.dropWhile (fun c => c ≠ '}')) (k + (w.takeWhile (fun c => c ≠ '}')).length)) ∧
    ((¬ ∃ is, StackSection cc is (w.takeWhile (fun c => c ≠ '}'))) →
      ∃ e p, (stackVm cc checked).parseInstructions name (sectionProcess w k) = (.err e, p)) := by
  obtain ⟨u, tail, rfl, hu, ht⟩ := brace_split w
  have e1 : (u ++ tail).takeWhile (fun c => c ≠ '}') = u := by
    rw [List.takeWhile_append_of_pos (by intro c hc; simp only [decide_eq_true_eq]; rintro rfl; exact hu hc)]
    rcases ht with rfl | ⟨r, rfl⟩ <;> simp
  have e2 : (u ++ tail).dropWhile (fun c => c ≠ '}') = tail := by
    rw [List.dropWhile_append_of_pos (by intro c hc; simp only [decide_eq_true_eq]; rintro rfl; exact hu hc)]
    rcases ht with rfl | ⟨r, rfl⟩ <;> simp
  rw [e1, e2]
  constructor
  · intro is h
    obtain ⟨p, h1, h2⟩ := stackParse_complete (tail := tail) hcc h hu ht k
    exact ⟨p, h1, h2⟩
  · intro hno
    obtain ⟨v, w', h1, -, h3⟩ := stackParse_sound cc u tail hu ht k
    rcases h3 with ⟨is, -, rfl, hs⟩ | ⟨e, he, -⟩
    · rw [List.append_nil] at h1
      subst h1
      exact absurd ⟨is, hs⟩ hno
    · exact ⟨e, (stackParse cc (sectionProcess (u ++ tail) k)).2, by
        show stackParse cc _ = _
        rw [← he]⟩

/-- The hypotheses of C50_any_text_partial: the text up to the first brace of `Add;} b` is a section; that of `Add\\};}` is none. -/
example : StackSection .ascii [.add] ((c% "Add;} b").takeWhile (fun c => c ≠ '}')) ∧
    (c% "Add\\};}").takeWhile (fun c => c ≠ '}') = c% "Add\\" :=
  ⟨⟨[], _, rfl, isSpace_nil, .cons (.plain (n := c% "Add") (.head _)) isSpace_nil .nil⟩, rfl⟩

/-- The instructions of a section are determined by its text. -/
theorem StackSection_unique (cc : CharClass) (hcc : SpaceOk cc) {is is' : List Instr} {body : Str} (h : StackSection cc is body)
    (h' : StackSection cc is' body) : is = is' := by
  obtain ⟨p, h1, -⟩ := (stackVm_reads hcc true [] body is).2 h [] 0
  obtain ⟨p', h1', -⟩ := (stackVm_reads hcc true [] body is').2 h' [] 0
  rw [h1] at h1'
  simp only [Prod.mk.injEq, Res.ok.injEq] at h1'
  exact h1'.1

/-- **C50**, constants: an instruction whose constant does not fit 64 bits makes the whole section fail, whatever
instructions come before and whatever text follows. -/
theorem C50_constant_too_large_partial (cc : CharClass) (hcc : SpaceOk cc) (checked : Bool) (name : Str) (is : List Instr)
    (g t : Str) (hg : IsSpace g) (ht : InstrsText cc is t) (v : Nat) (hv : 2 ^ 64 ≤ v)
    (n : Str) (hn : n ∈ [c% "RegAddConst", c% "PushConst", c% "Pow"]) (rest : Str) (k : Nat) :
    ∃ e p, (stackVm cc checked).parseInstructions name
      (sectionProcess (g ++ (t ++ (n ++ (' ' :: (numeral v ++ (';' :: rest)))))) k) = (.err e, p) := by
  obtain ⟨w, tail, hwt, hw, htl⟩ := brace_split rest
  obtain ⟨mk, hmk⟩ : ∃ mk, (n, mk) ∈ constTable := by
    simp only [List.mem_cons, List.not_mem_nil, or_false] at hn
    rcases hn with rfl | rfl | rfl
    · exact ⟨_, .head _⟩
    · exact ⟨_, .tail _ (.head _)⟩
    · exact ⟨_, .tail _ (.tail _ (.head _))⟩
  obtain ⟨h1, h2, h3⟩ := numeral_spec v
  have htb : '}' ∉ t := (Spec.StackSection.noBrace ⟨[], t, rfl, isSpace_nil, ht⟩).1
  have hb : '}' ∉ g ++ (t ++ (n ++ (' ' :: (numeral v ++ (';' :: w))))) := by
    simp [hg.noBrace.1, htb, (constTable_name (cc := cc) hmk).noBrace.1, (digits_noBrace h2).1, hw]
  have H := secReader (sectionProcess (g ++ (t ++ (n ++ (' ' :: (numeral v ++ (';' :: w))))) ++ tail) k) htl
  have h0 := secAt_start (tail := tail) hb k
  have hns : NoSpaceAhead (n ++ (' ' :: (numeral v ++ (';' :: w)))) := by
    obtain ⟨c, cs, rfl, hc, -⟩ := constTable_name (cc := cc) hmk
    rintro d r he
    injection he with he _
    subst he
    cases hs : CharClass.isWhitespace c with
    | false => rfl
    | true =>
      have := hcc c hs
      simp [CharClass.isAlphanumeric, hc] at this
  have hns' : NoSpaceAhead (t ++ (n ++ (' ' :: (numeral v ++ (';' :: w))))) := by
    cases t with
    | nil => exact hns
    | cons d t =>
      rintro x r he
      injection he with he _
      subst he
      exact ht.noSpace hcc d t rfl
  obtain ⟨p1, e1, e2⟩ := ppWhitespace_ok H h0 hg hns'
  have e1' : parseWhitespace (sectionProcess (g ++ (t ++ (n ++ (' ' :: (numeral v ++ (';' :: w))))) ++ tail) k) = p1 :=
    congrArg Prod.snd e1
  obtain ⟨fuel', p2, e3, e4, e5⟩ := stackLoop_prefix H hcc ht hns (p1.rest.length + 1) [] _ p1 e2 (by have := H.len e2; omega)
  cases fuel' with
  | zero => omega
  | succ fuel' =>
    obtain ⟨p3, e6⟩ := stackLoop_big (g := c% " ") H hcc hmk isSpace_blank (by simp) h1 h2 (by rw [h3]; exact hv)
      (w := ';' :: w) (by rintro c r he; injection he with he _; subst he; decide) fuel' ([] ++ is) e4
    refine ⟨.impossible, p3, ?_⟩
    have : g ++ (t ++ (n ++ (' ' :: (numeral v ++ (';' :: rest))))) = g ++ (t ++ (n ++ (' ' :: (numeral v ++ (';' :: w))))) ++ tail := by
      rw [hwt]; simp
    rw [this]
    show stackParse cc _ = _
    simp only [stackParse, e1', e3, e6]

end HPP
